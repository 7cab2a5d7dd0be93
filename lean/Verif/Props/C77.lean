import Verif.Lemmas.DirectSpqr

/-!
# C77: life cycle of the direct solver wrappers

For every heap, every sequence of supported calls on a wrapper object and whatever the libraries answer: no array is used
after it was released, released twice or accessed out of bounds; every call reports what the specification machine of
`Spec/Direct` says; and when the object is destroyed exactly the blocks that were there before its construction are
allocated - except for `SPQR`, which always leaves one block behind. The remaining theorems show what happens outside the
supported calls.
-/

namespace Istl
namespace Direct

variable {H : Heap}

/-- `LDL`, from default construction to destruction. -/
theorem C77_ldl (hH : H.Ok) (cs : List Ldl.Op) (hc : Ldl.Allowed none cs) :
    ∃ H', Ldl.run H cs = .ok (H', Ldl.expected false cs) ∧ SameBlocks H H' := by
  have h0 : Ldl.Inv ↑H.live H Ldl.ctor none false := ⟨holds_self hH, rfl, rfl, rfl, rfl⟩
  obtain ⟨H1, o1, s1, g1, e1, k1⟩ := Ldl.exec_inv _ cs h0 hc
  obtain ⟨H2, e2, k2⟩ := Ldl.destroy_inv k1
  exact ⟨H2, by simp [Ldl.run, e1, e2], sameBlocks_of k2⟩

/-- `UMFPack`, from any constructor to destruction; a throwing constructor leaves nothing behind. -/
theorem C77_umfpack (hH : H.Ok) (c : Umf.Ctor) (cs : List Umf.Op) (hc : Umf.AllowedCtor c)
    (hcs : ∀ k, Umf.heldBy c = some k → Umf.Allowed k cs) (hb : Umf.Blocky cs) :
    ∃ H', Umf.run H c cs = .ok (H', (Umf.heldBy c).map fun k => Umf.expected k cs) ∧ SameBlocks H H' := by
  obtain ⟨H1, o1, e1, k1⟩ := Umf.create_inv (holds_self hH) c hc
  cases hk : Umf.heldBy c with
  | none =>
    cases o1 with
    | none =>
      rw [hk] at k1
      exact ⟨H1, by simp [Umf.run, e1], sameBlocks_of k1⟩
    | some o => rw [hk] at k1; exact k1.elim
  | some k =>
    cases o1 with
    | none => rw [hk] at k1; exact k1.elim
    | some o =>
      rw [hk] at k1
      obtain ⟨H2, o2, h2, e2, k2⟩ := Umf.exec_inv _ cs k1 (hcs k hk) hb
      obtain ⟨H3, e3, k3⟩ := Umf.destroy_inv k2
      exact ⟨H3, by simp [Umf.run, e1, e2, e3], sameBlocks_of k3⟩

/-- `SPQR` with real entries: as the others, but one block is never released. -/
theorem C77_spqr (hH : H.Ok) (cs : List Spqr.Op) (hc : Spqr.Allowed none cs) :
    ∃ H', Spqr.run 1 H cs = .ok (H', Spqr.expected false cs) ∧ Leaks 1 H H' := by
  have h0 : Spqr.Inv ↑H.live (Spqr.ctor H).1 (Spqr.ctor H).2 none :=
    ⟨rfl, rfl, rfl, _, rfl, holds_alloc (holds_self hH) 1⟩
  obtain ⟨H1, o1, s1, e1, k1⟩ := Spqr.exec_inv _ cs h0 hc
  obtain ⟨H2, i, e2, k2⟩ := Spqr.destroy_inv k1
  refine ⟨H2, by simpa [Spqr.run, e2] using by simp [e1, e2], [(i, 1)], rfl, ?_⟩
  exact (Multiset.coe_eq_coe.1 k2.eq).symm

/-- `SuperLU`, with and without reuse of the vector headers. -/
theorem C77_superlu (hH : H.Ok) (reuse : Bool) (cs : List Slu.Op) (hc : Slu.Allowed none cs) :
    ∃ H', Slu.run H reuse cs = .ok (H', Slu.expected none cs) ∧ SameBlocks H H' := by
  have h0 : Slu.Inv ↑H.live H (Slu.ctor reuse) none := ⟨holds_self hH, rfl, rfl, rfl⟩
  obtain ⟨H1, o1, s1, e1, k1⟩ := Slu.exec_inv _ cs h0 hc
  obtain ⟨H2, e2, k2⟩ := Slu.destroy_inv k1
  exact ⟨H2, by simp [Slu.run, e1, e2], sameBlocks_of k2⟩

/-- A supported history of each wrapper, with failing factorizations and calls that throw. -/
def demoLdl : List Ldl.Op := [.apply 0 0, .setMatrix 3 3 7 2 .success, .apply 3 3, .setMatrix 2 2 4 1 .zeroPivot, .apply 2 2,
  .free, .apply 0 0, .setMatrix 2 2 4 1 .success, .apply 2 5]
def demoUmf : List Umf.Op := [.apply 3 3 3, .setMatrix false 4 4 9 true true, .apply 4 4 2, .apply 4 5 2, .save true,
  .setSubMatrix 2 2 4 true false, .applyC, .free, .apply 2 2 1, .setMatrix true 0 0 0 true true]
def demoSpqr : List Spqr.Op := [.setMatrix 4 3 7, .apply 4 3, .apply 4 3, .free, .apply 0 0, .setMatrix 2 2 2, .apply 2 2]
def demoSlu : List Slu.Op := [.apply 3 3, .setMatrix false 3 3 5 true, .apply 3 3, .apply 3 3, .apply 3 2, .applyC,
  .setMatrix true 2 2 4 false, .apply 2 2, .free, .apply 2 2]

example : Ldl.Allowed none demoLdl ∧ Ldl.expected false demoLdl =
    [.solved false, .done, .solved true, .threw .invalidState, .solved false, .done, .solved false, .done, .solved true] :=
  ⟨by simp [demoLdl, Ldl.Allowed], by simp [demoLdl, Ldl.expected]⟩
example : Umf.Allowed .file demoUmf ∧ Umf.Blocky demoUmf ∧ Umf.AllowedCtor (.file true) ∧ Umf.expected .file demoUmf =
    [.threw .istlError, .done, .solved true, .threw .istlError, .done, .done, .solved false, .done, .threw .istlError, .done] :=
  ⟨by simp [demoUmf, Umf.Allowed, Umf.Fine, Umf.Held.set], by simp [demoUmf, Umf.Blocky], trivial, by decide⟩
example : Spqr.Allowed none demoSpqr ∧ Spqr.expected false demoSpqr =
    [.done, .solved true, .solved true, .done, .solved false, .done, .solved true] :=
  ⟨by simp [demoSpqr, Spqr.Allowed], by decide⟩
example : Slu.Allowed none demoSlu ∧ Slu.expected none demoSlu =
    [.threw .istlError, .done, .solved true, .solved true, .threw .istlError, .solved true, .done, .solved false, .done,
      .threw .istlError] :=
  ⟨by simp [demoSlu, Slu.Allowed], by decide⟩
example : (Heap.mk 7 [(3, 5), (6, 2)]).Ok := ⟨by decide, by decide⟩

/-! ## Outside the supported calls -/

/-- A factorization loaded from a file cannot be used: `apply` throws for every non-empty right hand side. -/
theorem C77_umfpack_file (hH : H.Ok) (vs : List (Nat × Nat × Nat)) (hv : ∀ v ∈ vs, v.1 ≠ 0) :
    ∃ H', Umf.run H (.file true) (vs.map fun v => .apply v.1 v.2.1 v.2.2) =
      .ok (H', some (vs.map fun _ => .threw .istlError)) ∧ SameBlocks H H' := by
  have ha : ∀ l : List (Nat × Nat × Nat), Umf.Allowed .file (l.map fun v => .apply v.1 v.2.1 v.2.2) := by
    intro l; induction l with
    | nil => trivial
    | cons v l ih => exact ih
  have hb : ∀ l : List (Nat × Nat × Nat), (∀ v ∈ l, v.1 ≠ 0) → Umf.Blocky (l.map fun v => .apply v.1 v.2.1 v.2.2) := by
    intro l; induction l with
    | nil => intro _; trivial
    | cons v l ih => exact fun h => ⟨fun z => absurd z (h v (by simp)), ih fun w hw => h w (by simp [hw])⟩
  have he : ∀ l : List (Nat × Nat × Nat), (∀ v ∈ l, v.1 ≠ 0) →
      Umf.expected .file (l.map fun v => .apply v.1 v.2.1 v.2.2) = l.map fun _ => .threw .istlError := by
    intro l; induction l with
    | nil => intro _; rfl
    | cons v l ih =>
      intro h
      have h1 : v.1 ≠ 0 := h v (by simp)
      simp [Umf.expected, Umf.expectedApply, h1, ih fun w hw => h w (by simp [hw])]
  obtain ⟨H', e, k⟩ := C77_umfpack hH (.file true) _ trivial (fun k hk => by
    cases hk; exact ha vs) (hb vs hv)
  refine ⟨H', ?_, k⟩
  rw [e]
  simp [Umf.heldBy, he vs hv]

/-- `LDL` and `SPQR` claim convergence of an `apply` after `free()` although nothing was computed. -/
theorem C77_apply_after_free (hH : H.Ok) {N nnz lnz : Nat} (hN : 0 < N) :
    (∃ H', Ldl.run H [.setMatrix N N nnz lnz .success, .free, .apply 0 0] = .ok (H', [.done, .done, .solved false])) ∧
    ∃ H', Spqr.run 1 H [.setMatrix N N nnz, .free, .apply 0 0] = .ok (H', [.done, .done, .solved false]) := by
  constructor
  · obtain ⟨H', e, _⟩ := C77_ldl hH [.setMatrix N N nnz lnz .success, .free, .apply 0 0] (by simp [Ldl.Allowed, hN])
    exact ⟨H', e⟩
  · obtain ⟨H', e, _⟩ := C77_spqr hH [.setMatrix N N nnz, .free, .apply 0 0] (by simp [Spqr.Allowed]; omega)
    exact ⟨H', e⟩

/-- Calling `free()` twice releases the same arrays twice, in all four wrappers. -/
theorem C77_free_twice (hH : H.Ok) {N nnz lnz : Nat} (hN : 0 < N) (s n g : Bool) :
    Ldl.run H [.setMatrix N N nnz lnz .success, .free, .free] = .ub ∧
    Umf.run H (.matrix false N N nnz s n) [.free, .free] = .ub ∧
    Spqr.run 1 H [.setMatrix N N nnz, .free, .free] = .ub ∧
    Slu.run H g [.setMatrix false N N nnz s, .free, .free] = .ub := by
  refine ⟨?_, ?_, ?_, ?_⟩
  · have h0 : Ldl.Inv ↑H.live H Ldl.ctor none false := ⟨holds_self hH, rfl, rfl, rfl, rfl⟩
    obtain ⟨H1, o1, e1, k1⟩ := Ldl.setMatrix_inv (nnz := nnz) (lnz := lnz) (f := .success) h0 hN (by simp)
    obtain ⟨hn, nnz', lnz', v, r, c, d, y, lp, lx, li, p, q, rfl, hH1⟩ := k1
    obtain ⟨H2, e2, k2⟩ := holds_freeAll [(d, N), (y, N), (lp, N + 1), (lx, lnz'), (li, lnz'), (p, N), (q, N)]
      (hH1.congr (by rw [Ldl.blocks, ← Multiset.coe_add, Multiset.add_assoc]))
    obtain ⟨H3, e3, k3⟩ := ccs_free (N := N) (M := N) (nnz := nnz') k2
    simp only [List.map_cons, List.map_nil] at e2
    have hd := dead_of (i := d) (n := N) (hH1.congr rfl) (by simp [Ldl.blocks]) k3
    simp [Ldl.run, Ldl.exec, Ldl.step, e1, Ldl.free, e2, e3, freeAll_head_ub hd]
  · obtain ⟨H1, o1, e1, k1, _⟩ := Umf.setMatrix_inv (e := false) (nnz := nnz) (s := s) (n := n) (Umf.ctor_inv (holds_self hH))
      (fun _ => ⟨hN, rfl⟩)
    obtain ⟨_, _, nnz', v, r, c, sp, np, so, S, T, rfl, hS, ⟨hT, _⟩, hH1⟩ := k1
    obtain ⟨H2, e2, k2⟩ := Umf.hnd_free hS hH1
    obtain ⟨H3, e3, k3⟩ := ccs_free (N := N) (M := N) (nnz := nnz') k2
    obtain ⟨H4, e4, k4⟩ := Umf.hnd_free hT k3
    have hd := dead_of (i := v) (n := nnz') (l := [(v, nnz'), (r, nnz'), (c, N + 1)] ++ T.toList) (k2.congr (by
      rw [← Multiset.coe_add, Multiset.coe_toList, Multiset.add_assoc])) (by simp) k4
    have hcf : Ccs.free H4 ⟨0, 0, 0, .at v, .at r, .at c⟩ = .ub := by
      simp only [Ccs.free, freeAll_head_ub hd]; rfl
    have hnull : H4.free .null = .ok H4 := rfl
    simp [Umf.run, Umf.create, e1, Umf.exec, Umf.step, Umf.free, e2, e3, e4, hcf, hnull]
  · have h0 : Spqr.Inv ↑H.live (Spqr.ctor H).1 (Spqr.ctor H).2 none :=
      ⟨rfl, rfl, rfl, _, rfl, holds_alloc (holds_self hH) 1⟩
    obtain ⟨H1, o1, e1, k1⟩ := Spqr.setMatrix_inv (N := N) (M := N) (nnz := nnz) h0 (by omega)
    obtain ⟨hd, nnz', v, r, c, i, a, b, f, rfl, hH1⟩ := k1
    obtain ⟨H2, e2, k2⟩ := holds_freeAll [(a, nnz'), (b, N), (f, 1)] hH1
    obtain ⟨H3, e3, k3⟩ := ccs_free (N := N) (M := N) (nnz := nnz') k2
    simp only [List.map_cons, List.map_nil] at e2
    have t1 := touch_ok hH1 (i := i) (k := 1) (by simp) (le_refl _)
    have t3 := touch_ok k3 (i := i) (k := 1) (by simp) (le_refl _)
    have hd := dead_of (i := v) (n := nnz') k2 (by simp) k3
    have hcf : Ccs.free H3 ⟨0, 0, 0, .at v, .at r, .at c⟩ = .ub := by
      simp only [Ccs.free, freeAll_head_ub hd]; rfl
    have hn : H3.freeAll [.null, .null, .null] = .ok H3 := rfl
    simp [Spqr.run, e1, Spqr.exec, Spqr.step, Spqr.free, t1, e2, e3, t3, hcf, hn]
  · have h0 : Slu.Inv ↑H.live H (Slu.ctor g) none := ⟨holds_self hH, rfl, rfl, rfl⟩
    obtain ⟨H1, o1, e1, k1⟩ := Slu.setMatrix_inv (N := N) (M := N) (nnz := nnz) (sub := false) (g := s) h0 (by omega) (by simp)
    obtain ⟨H2, o2, e2, k2⟩ := Slu.free_some k1
    obtain ⟨hd, _, nnz', v, r, c, as, pc, pr, et, R, C, L, U, T, g1, g2, g3, g4, g5, g6, g7, g8, g9, hT, hH1⟩ := k1
    have hperm : o2.permc = o1.permc := by
      unfold Slu.free Slu.matFree at e2
      obtain ⟨_, _, e⟩ := Res.bind_eq_ok.1 e2
      obtain ⟨_, _, e⟩ := Res.bind_eq_ok.1 e
      obtain ⟨_, _, e⟩ := Res.bind_eq_ok.1 e
      obtain ⟨_, _, e⟩ := Res.bind_eq_ok.1 e
      cases e
      rfl
    have hd := dead_of (i := pc) (n := N) (H := H1) (H' := H2)
      (l := [(pc, N), (pr, N), (et, N), (R, N), (C, N), (L, 1), (U, 1)] ++ (T.toList ++ [(v, nnz'), (r, nnz'), (c, N + 1), (as, 1)]))
      (hH1.congr (by
        simp only [← Multiset.coe_add, Multiset.coe_toList, ← Multiset.cons_coe, Multiset.coe_nil, ← Multiset.singleton_add,
          Multiset.add_zero, Multiset.zero_add]
        abel)) (by simp) k2.1
    have hf2 : Slu.free H2 o2 = .ub := by
      unfold Slu.free
      rw [hperm, g3, freeAll_head_ub hd]; rfl
    simp [Slu.run, e1, Slu.exec, Slu.step, e2, hf2]

/-- A failing factorization makes the constructor of `LDL` throw and leaves seven arrays behind. -/
theorem C77_ldl_constructor_leak (hH : H.Ok) {N nnz lnz : Nat} (hN : 0 < N) :
    ∃ H', Ldl.construct H N N nnz lnz .zeroPivot = .ok (H', none) ∧ Leaks 7 H H' := by
  have h0 : Ldl.Inv ↑H.live H Ldl.ctor none false := ⟨holds_self hH, rfl, rfl, rfl, rfl⟩
  obtain ⟨H1, o1, e1, k1⟩ := Ldl.setMatrix_inv (nnz := nnz) (lnz := lnz) (f := .zeroPivot) h0 hN (by simp)
  obtain ⟨hn, nnz', lnz', v, r, c, d, y, lp, lx, li, p, q, rfl, hH1⟩ := k1
  obtain ⟨H2, e2, k2⟩ := ccs_free (N := N) (M := N) (nnz := nnz') (H := H1) (v := v) (r := r) (c := c) (a := nnz') (b := nnz')
    (d := N + 1) (F := ↑[(d, N), (y, N), (lp, N + 1), (lx, lnz'), (li, lnz'), (p, N), (q, N)] + ↑H.live) (hH1.congr (by
      rw [Ldl.blocks, ← Multiset.coe_add]; abel))
  refine ⟨H2, ?_, [(d, N), (y, N), (lp, N + 1), (lx, lnz'), (li, lnz'), (p, N), (q, N)], rfl, ?_⟩
  · have : Ccs.freeIf H1 ⟨N, N, nnz', .at v, .at r, .at c⟩ = .ok (H2, ⟨0, 0, 0, .at v, .at r, .at c⟩) := by
      rw [Ccs.freeIf, if_pos (by show N + N + nnz' ≠ 0; omega), e2]
    simp [Ldl.construct, e1, this]
  · exact (Multiset.coe_eq_coe.1 (by rw [k2.eq, Multiset.coe_add])).symm

/-- When the fill reducing ordering fails, `LDL::setMatrix` throws and the object can no longer be destroyed: the destructor
releases pointers that were never set, or released before. -/
theorem C77_ldl_ordering_failure (hH : H.Ok) {N nnz lnz N' nnz' lnz' : Nat} (hN : 0 < N) (hN' : 0 < N') :
    Ldl.run H [.setMatrix N' N' nnz' lnz' .amdFails] = .ub ∧
    Ldl.run H [.setMatrix N N nnz lnz .success, .setMatrix N' N' nnz' lnz' .amdFails] = .ub := by
  have h0 : Ldl.Inv ↑H.live H Ldl.ctor none false := ⟨holds_self hH, rfl, rfl, rfl, rfl⟩
  constructor
  · obtain ⟨Hq, o1, e1, e2⟩ := Ldl.amd_tail (N := N') (nnz := nnz') (lnz := lnz') (o := Ldl.ctor) (holds_self hH) hN' (.inl rfl)
    simp [Ldl.run, Ldl.exec, Ldl.step, Ldl.setMatrix, (show Ldl.freeIf H Ldl.ctor = .ok (H, Ldl.ctor) from rfl),
      (show Ccs.freeIf H Ldl.ctor.mat = .ok (H, Ldl.ctor.mat) from rfl), e1, e2]
  · obtain ⟨H1, o1, e1, k1⟩ := Ldl.setMatrix_inv (nnz := nnz) (lnz := lnz) (f := .success) h0 hN (by simp)
    obtain ⟨H2, o2, e2, k2, z1, z2, z3, _⟩ := Ldl.freeIf_inv k1
    have hlx : o2.Lx = .wild ∨ ∃ i, o2.Lx = .at i ∧ Dead H2 i := by
      obtain ⟨hn, nnz'', lnz'', v, r, c, d, y, lp, lx, li, p, q, rfl, hH1⟩ := k1
      have hfree : Ldl.free H1 ⟨⟨N, N, nnz'', .at v, .at r, .at c⟩, .at lp, .at p, .at q, .at d, .at y, .at lx, .at li,
          lnz'', true⟩ = .ok (H2, o2) := by
        rw [Ldl.freeIf, if_pos (by show 0 < N + N; omega)] at e2
        simpa using e2
      have hok := hH1.ok
      unfold Ldl.free at hfree
      obtain ⟨Ha, ha, hfree⟩ := Res.bind_eq_ok.1 hfree
      obtain ⟨Hb, hb, hfree⟩ := Res.bind_eq_ok.1 hfree
      cases hfree
      refine .inr ⟨lx, rfl, ?_⟩
      obtain ⟨Hc, hc, kc⟩ := holds_freeAll [(d, N), (y, N), (lp, N + 1)]
        (s := ↑([(lx, lnz''), (li, lnz''), (p, N), (q, N)] ++ [(v, nnz''), (r, nnz''), (c, N + 1)]) + ↑H.live) (hH1.congr (by
          rw [Ldl.blocks, ← Multiset.add_assoc, Multiset.coe_add]; rfl))
      have ha' : Hc.freeAll [.at lx, .at li, .at p, .at q] = .ok Ha := by
        have := freeAll_append [.at d, .at y, .at lp] [.at lx, .at li, .at p, .at q] (H := H1)
        simp only [List.map_cons, List.map_nil] at hc
        rw [hc, Res.ok_bind] at this
        rw [← this]; exact ha
      rw [Heap.freeAll] at ha'
      obtain ⟨Hd, hd, ha'⟩ := Res.bind_eq_ok.1 ha'
      have := (dead_freed kc.ok hd).freeAll _ ha'
      unfold Ccs.free at hb
      obtain ⟨He, he, hb⟩ := Res.bind_eq_ok.1 hb
      cases hb
      exact this.freeAll _ he
    obtain ⟨Hq, o3, e3, e4⟩ := Ldl.amd_tail (N := N') (nnz := nnz') (lnz := lnz') k2 hN' hlx
    have hs : Ldl.setMatrix H1 o1 N' N' nnz' lnz' .amdFails = .ok (Hq, o3, .threw .invalidState) := by
      simp [Ldl.setMatrix, e2, ccs_freeIf_empty H2 z1 z2 z3, e3]
    simp [Ldl.run, Ldl.exec, Ldl.step, e1, hs, e4]

/-- A complex `SPQR` writes out of bounds as soon as the matrix has an entry. -/
theorem C77_spqr_complex (hH : H.Ok) {N M nnz : Nat} (hn : 0 < nnz) (cs : List Spqr.Op) :
    Spqr.run 2 H (.setMatrix N M nnz :: cs) = .ub := by
  have k0 := holds_alloc (holds_self hH) 1
  obtain ⟨H1, v, r, c, e1, k1⟩ := ccs_fill k0 N M nnz
  obtain ⟨H2, a, e2, k2⟩ := alloc_ex k1 nnz
  have t0 := touch_ok k1 (i := H.next) (k := 1) (by simp) (le_refl _)
  have t1 := touchAll_sub k1 [(c, M + 1), (r, nnz), (v, nnz)] (by simp)
  simp only [List.map_cons, List.map_nil] at t1
  have t2 : H2.touch (.at a) (2 * nnz) = .ub := by
    have hm : (a, nnz) ∈ H2.live := by
      have : (a, nnz) ∈ (↑H2.live : Multiset (Nat × Nat)) := by rw [k2.eq]; simp
      simpa using this
    simp only [Heap.touch, lookup_of_mem k2.ok.1 hm]
    rw [if_neg (by omega), if_neg (by omega)]
  have hfi : Spqr.freeIf (Spqr.ctor H).1 (Spqr.ctor H).2 = .ok ((H.alloc 1).1, (Spqr.ctor H).2) := rfl
  have hci : Ccs.freeIf (H.alloc 1).1 (Spqr.ctor H).2.mat = .ok ((H.alloc 1).1, (Spqr.ctor H).2.mat) := rfl
  have hcc : (Spqr.ctor H).2.cc = .at H.next := rfl
  simp [Spqr.run, Spqr.exec, Spqr.step, Spqr.setMatrix, hfi, hci, e1, Spqr.decompose, hcc, t0, t1, e2, t2]

/-- A matrix without any scalars is not released: ten arrays of `LDL`, eleven blocks of `SuperLU`, six of `SPQR` (and its
workspace), the three arrays and the library objects of `UMFPack` when all rows are ignored. -/
theorem C77_empty_leaks (hH : H.Ok) (g : Bool) :
    (∃ H', Ldl.run H [.setMatrix 0 0 0 0 .success] = .ok (H', [.done]) ∧ Leaks 10 H H') ∧
    (∃ H', Slu.run H g [.setMatrix false 0 0 0 true] = .ok (H', [.done]) ∧ Leaks 11 H H') ∧
    (∃ H', Spqr.run 1 H [.setMatrix 0 0 0] = .ok (H', [.done]) ∧ Leaks 7 H H') ∧
    ∃ H', Umf.run H (.matrix false 0 0 0 true true) [] = .ok (H', some []) ∧ Leaks 5 H H' := by
  refine ⟨?_, ?_, ?_, ?_⟩
  · have h0 : Ldl.Inv ↑H.live H Ldl.ctor none false := ⟨holds_self hH, rfl, rfl, rfl, rfl⟩
    obtain ⟨H1, o1, e1, ⟨nnz, lnz, v, r, c, d, y, lp, lx, li, p, q, rfl, hH1⟩, rfl⟩ :=
      Ldl.setMatrix_owned h0 0 0 0 (f := .success) (by simp)
    refine ⟨H1, ?_, Ldl.blocks 0 0 lnz v r c d y lp lx li p q, rfl, ?_⟩
    · simp [Ldl.run, Ldl.exec, Ldl.step, e1, Ldl.destroy, Ldl.freeIf, Ccs.freeIf]
    · exact (Multiset.coe_eq_coe.1 (by rw [hH1.eq]; rfl)).symm
  · have h0 : Slu.Inv ↑H.live H (Slu.ctor g) none := ⟨holds_self hH, rfl, rfl, rfl⟩
    obtain ⟨H1, o1, e1, ⟨nnz, v, r, c, as, pc, pr, et, R, C, L, U, T, g1, g2, g3, g4, g5, g6, g7, g8, g9, hT, hH1⟩, _, hz, hf⟩ :=
      Slu.setMatrix_owned h0 0 0 0 false true (by simp)
    have hT0 : T = 0 := by simpa [Slu.Vecs, hf] using hT
    subst hT0
    rw [g1] at hz
    obtain rfl : nnz = 0 := hz
    refine ⟨H1, ?_, [(pc, 0), (pr, 0), (et, 0), (R, 0), (C, 0), (L, 1), (U, 1), (v, 0), (r, 0), (c, 1), (as, 1)], rfl, ?_⟩
    · simp [Slu.run, Slu.exec, Slu.step, e1, Slu.destroy, Slu.freeIf, Slu.matDestroy, Ccs.freeIf, g1]
    · exact (Multiset.coe_eq_coe.1 (by rw [hH1.eq, Multiset.zero_add]; rfl)).symm
  · have h0 : Spqr.Inv ↑H.live (Spqr.ctor H).1 (Spqr.ctor H).2 none :=
      ⟨rfl, rfl, rfl, _, rfl, holds_alloc (holds_self hH) 1⟩
    obtain ⟨H1, o1, e1, ⟨nnz, v, r, c, i, a, b, f, rfl, hH1⟩, rfl⟩ := Spqr.setMatrix_owned h0 0 0 0
    have t := touch_ok hH1 (i := i) (k := 1) (by simp) (le_refl _)
    refine ⟨H1, ?_, [(a, 0), (b, 0), (f, 1), (v, 0), (r, 0), (c, 1), (i, 1)], rfl, ?_⟩
    · simp [Spqr.run, Spqr.exec, Spqr.step, e1, Spqr.destroy, Spqr.freeIf, Ccs.freeIf, t]
    · exact (Multiset.coe_eq_coe.1 (by rw [hH1.eq]; rfl)).symm
  · obtain ⟨H1, o1, e1, ⟨nnz, v, r, c, sp, np, so, S, T, rfl, hS, ⟨hT, hso⟩, hH1⟩, rfl⟩ :=
      Umf.setMatrix_owned (Umf.ctor_inv (holds_self hH)) 0 0 true true
    have hso : so = true := hso rfl
    subst hso
    obtain ⟨i, rfl, rfl⟩ : ∃ i, sp = .at i ∧ S = {(i, 1)} := by
      rcases hS with ⟨h, _⟩ | ⟨_, h⟩
      · cases h
      · exact h
    obtain ⟨j, rfl, rfl⟩ : ∃ i, np = .at i ∧ T = {(i, 1)} := by
      rcases hT with ⟨h, _⟩ | ⟨_, h⟩
      · cases h
      · exact h
    refine ⟨H1, ?_, [(i, 1), (v, 0), (r, 0), (c, 1), (j, 1)], rfl, ?_⟩
    · simp [Umf.run, Umf.create, Umf.exec, e1, Umf.destroy, Umf.freeIf, Ccs.freeIf]
    · exact (Multiset.coe_eq_coe.1 (by rw [hH1.eq]; rfl)).symm

/-- The constructor that computes and saves a decomposition leaks both library objects when the file cannot be written. -/
theorem C77_umfpack_save_leak (hH : H.Ok) {N nnz : Nat} (hN : 0 < N) :
    ∃ H', Umf.run H (.fileOr false false N N nnz true true false) [] = .ok (H', none) ∧ Leaks 2 H H' := by
  have h0 : Umf.Inv ↑H.live H { Umf.ctor with num := .null } .nothing := ⟨holds_self hH, rfl, rfl, rfl, rfl⟩
  obtain ⟨H1, o1, e1, k1, _⟩ := Umf.setMatrix_inv (e := false) (nnz := nnz) (s := true) (n := true) h0 (fun _ => ⟨hN, rfl⟩)
  have hs := Umf.save_inv k1 (by simp [Umf.Held.set]) false
  obtain ⟨_, _, nnz', v, r, c, sp, np, so, S, T, rfl, hS, ⟨hT, hso⟩, hH1⟩ := k1
  obtain ⟨H2, e2, k2⟩ := ccs_free (N := N) (M := N) (nnz := nnz') (H := H1) (v := v) (r := r) (c := c) (a := nnz') (b := nnz')
    (d := N + 1) (F := S + (T + ↑H.live)) (hH1.congr (by abel))
  have hcf : Ccs.freeIf H1 ⟨N, N, nnz', .at v, .at r, .at c⟩ = .ok (H2, ⟨0, 0, 0, .at v, .at r, .at c⟩) := by
    rw [Ccs.freeIf, if_pos (by show N + N + nnz' ≠ 0; omega), e2]
  have hso : so = true := hso rfl
  subst hso
  obtain ⟨i, rfl, rfl⟩ : ∃ i, sp = .at i ∧ S = {(i, 1)} := by
    rcases hS with ⟨h, _⟩ | ⟨_, h⟩
    · cases h
    · exact h
  obtain ⟨j, rfl, rfl⟩ : ∃ i, np = .at i ∧ T = {(i, 1)} := by
    rcases hT with ⟨h, _⟩ | ⟨_, h⟩
    · cases h
    · exact h
  refine ⟨H2, ?_, [(i, 1), (j, 1)], rfl, ?_⟩
  · simp [Umf.run, Umf.create, Umf.ofFileOr, e1, hs, Umf.expectedSave, Umf.Held.set, hcf]
  · exact (Multiset.coe_eq_coe.1 (by rw [k2.eq]; rfl)).symm

end Direct
end Istl
