import Verif.Lemmas.DirectUmf

/-! The invariants of `SPQR` and `SuperLU` objects. -/

namespace Istl
namespace Direct
namespace Spqr

/-- The object holds all its blocks. -/
def Owned (F : Multiset (Nat × Nat)) (H : Heap) (o : Obj) (d : Nat × Nat) : Prop :=
  ∃ nnz v r c i a b f, o = ⟨⟨d.1, d.2, nnz, .at v, .at r, .at c⟩, .at i, .at a, .at b, .at f⟩ ∧
      Holds H (↑[(a, nnz), (b, d.1), (f, 1)] + (↑[(v, nnz), (r, nnz), (c, d.2 + 1)] + ((i, 1) ::ₘ F)))

/-- Nothing was ever set, nothing is set now, or a matrix of `N × M` scalars; `F` are the blocks of everybody else. -/
def Inv (F : Multiset (Nat × Nat)) (H : Heap) (o : Obj) : Option (Option (Nat × Nat)) → Prop
  | none => o.mat.N = 0 ∧ o.mat.M = 0 ∧ o.mat.nnz = 0 ∧ ∃ i, o.cc = .at i ∧ Holds H ((i, 1) ::ₘ F)
  | some none => o.mat.N = 0 ∧ o.mat.M = 0 ∧ o.mat.nnz = 0 ∧ o.fact = .null ∧ o.B = .null ∧
      ∃ i, o.cc = .at i ∧ Holds H ((i, 1) ::ₘ F)
  | some (some d) => 0 < d.1 + d.2 ∧ Owned F H o d

theorem free_some {F : Multiset (Nat × Nat)} {H : Heap} {o : Obj} {d : Nat × Nat} (h : Inv F H o (some (some d))) :
    ∃ H' o', free H o = .ok (H', o') ∧ Inv F H' o' (some none) ∧ o'.cc = o.cc := by
  obtain ⟨hd, nnz, v, r, c, i, a, b, f, rfl, hH⟩ := h
  obtain ⟨H1, e1, k1⟩ := holds_freeAll [(a, nnz), (b, d.1), (f, 1)] hH
  obtain ⟨H2, e2, k2⟩ := ccs_free (N := d.1) (M := d.2) (nnz := nnz) k1
  simp only [List.map_cons, List.map_nil] at e1
  have t1 := touch_ok hH (i := i) (k := 1) (by simp) (le_refl _)
  refine ⟨H2, ⟨⟨0, 0, 0, .at v, .at r, .at c⟩, .at i, .null, .null, .null⟩, ?_, ⟨rfl, rfl, rfl, rfl, rfl, i, rfl, k2⟩, rfl⟩
  simp [free, t1, e1, e2]

/-- The object holds nothing. -/
def Bare (F : Multiset (Nat × Nat)) (H : Heap) (o : Obj) : Prop :=
  o.mat.N = 0 ∧ o.mat.M = 0 ∧ o.mat.nnz = 0 ∧ ∃ i, o.cc = .at i ∧ Holds H ((i, 1) ::ₘ F)

theorem freeIf_inv {F : Multiset (Nat × Nat)} {H : Heap} {o : Obj} {s : Option (Option (Nat × Nat))} (h : Inv F H o s) :
    ∃ H' o', freeIf H o = .ok (H', o') ∧ Bare F H' o' ∧ o'.cc = o.cc := by
  match s, h with
  | none, h =>
    have h' := h
    obtain ⟨z1, z2, z3, _⟩ := h
    exact ⟨H, o, by rw [freeIf, if_neg (by omega)], h', rfl⟩
  | some none, h =>
    obtain ⟨z1, z2, z3, _, _, hh⟩ := h
    exact ⟨H, o, by rw [freeIf, if_neg (by omega)], ⟨z1, z2, z3, hh⟩, rfl⟩
  | some (some d), h =>
    obtain ⟨H', o', e, ⟨z1, z2, z3, _, _, hh⟩, hc⟩ := free_some h
    refine ⟨H', o', ?_, ⟨z1, z2, z3, hh⟩, hc⟩
    obtain ⟨hd, nnz, v, r, c, i, a, b, f, rfl, hH⟩ := h
    rw [freeIf, if_pos (by show 0 < d.1 + d.2; exact hd), e]

theorem setMatrix_owned {F : Multiset (Nat × Nat)} {H : Heap} {o : Obj} {s : Option (Option (Nat × Nat))} (h : Inv F H o s)
    (N M nnz : Nat) : ∃ H' o', setMatrix 1 H o N M nnz = .ok (H', o') ∧ Owned F H' o' (N, M) ∧ o'.mat.nnz = nnz := by
  obtain ⟨H0, o0, e0, ⟨z1, z2, z3, i, hi, k0⟩, _⟩ := freeIf_inv h
  obtain ⟨H1, v, r, c, e1, k1⟩ := ccs_fill k0 N M nnz
  obtain ⟨H2, a, e2, k2⟩ := alloc_ex k1 nnz
  obtain ⟨H3, b, e3, k3⟩ := alloc_ex k2 N
  obtain ⟨H4, f, e4, k4⟩ := alloc_ex k3 1
  have t0 := touch_ok k1 (i := i) (k := 1) (by simp) (le_refl _)
  have t1 := touchAll_sub k1 [(c, M + 1), (r, nnz), (v, nnz)] (by simp)
  simp only [List.map_cons, List.map_nil] at t1
  have t2 := touch_ok k2 (i := a) (k := nnz) (by simp) (le_refl _)
  refine ⟨H4, ⟨⟨N, M, nnz, .at v, .at r, .at c⟩, .at i, .at a, .at b, .at f⟩, ?_, ⟨nnz, v, r, c, i, a, b, f, rfl, ?_⟩, rfl⟩
  · simp [setMatrix, e0, ccs_freeIf_empty H0 z1 z2 z3, e1, decompose, hi, t0, t1, e2, t2, e3, e4]
  · refine k4.congr ?_
    simp only [← Multiset.cons_coe, Multiset.coe_nil, ← Multiset.singleton_add, Multiset.add_zero]
    abel

theorem setMatrix_inv {F : Multiset (Nat × Nat)} {H : Heap} {o : Obj} {s : Option (Option (Nat × Nat))} (h : Inv F H o s)
    {N M nnz : Nat} (hd : 0 < N + M) :
    ∃ H' o', setMatrix 1 H o N M nnz = .ok (H', o') ∧ Inv F H' o' (some (some (N, M))) := by
  obtain ⟨H', o', e, k, _⟩ := setMatrix_owned h N M nnz
  exact ⟨H', o', e, hd, k⟩

theorem apply_inv {F : Multiset (Nat × Nat)} {H : Heap} {o : Obj} {s : Option (Option (Nat × Nat))} (h : Inv F H o s)
    (hs : s ≠ none) {bs xs : Nat} (hb : ∀ d, s = some (some d) → d.1 ≤ bs ∧ d.2 ≤ xs) :
    ∃ H' o', apply 1 H o bs xs = .ok (H', o', .solved s.join.isSome) ∧ Inv F H' o' s := by
  match s, h with
  | none, h => exact absurd rfl hs
  | some none, h =>
    obtain ⟨z1, z2, z3, hf, hB, hh⟩ := h
    refine ⟨H, { o with B := .null }, ?_, z1, z2, z3, hf, rfl, hh⟩
    simp [apply, z1, z2, touch_zero, hf, hB, Heap.free]
  | some (some d), h =>
    obtain ⟨hd, nnz, v, r, c, i, a, b, f, rfl, hH⟩ := h
    have hbd := hb d rfl
    have t0 := touch_ok hH (i := b) (k := d.1) (by simp) (le_refl _)
    have t1 := touch_ok hH (i := f) (k := 1) (by simp) (le_refl _)
    have t2 := touch_ok hH (i := i) (k := 1) (by simp) (le_refl _)
    obtain ⟨H1, q, e1, k1⟩ := alloc_ex hH d.1
    obtain ⟨H2, x, e2, k2⟩ := alloc_ex k1 d.2
    obtain ⟨H3, e3, k3⟩ := holds_free (H := H2) (i := b) (n := d.1)
      (s := (x, d.2) ::ₘ (↑[(a, nnz), (q, d.1), (f, 1)] + (↑[(v, nnz), (r, nnz), (c, d.2 + 1)] + ((i, 1) ::ₘ F))))
      (k2.congr (by
        simp only [← Multiset.cons_coe, Multiset.coe_nil, ← Multiset.singleton_add, Multiset.add_zero]
        abel))
    have t3 := touch_ok k3 (i := x) (k := d.2) (by simp) (le_refl _)
    obtain ⟨H4, e4, k4⟩ := holds_free k3
    refine ⟨H4, ⟨⟨d.1, d.2, nnz, .at v, .at r, .at c⟩, .at i, .at a, .at q, .at f⟩, ?_, hd, nnz, v, r, c, i, a, q, f, rfl, k4⟩

    simp [apply, t0, hbd, t1, t2, e1, e2, e3, t3, e4]

theorem exec_inv (F : Multiset (Nat × Nat)) (cs : List Op) : ∀ {H : Heap} {o : Obj} {s : Option (Option (Nat × Nat))},
    Inv F H o s → Allowed s cs →
    ∃ H' o' s', exec 1 H o cs = .ok (H', o', expected s.join.isSome cs) ∧ Inv F H' o' s' := by
  induction cs with
  | nil => intro H o s h _; exact ⟨H, o, s, rfl, h⟩
  | cons c cs ih =>
    intro H o s h ha
    cases c with
    | setMatrix N M nnz =>
      obtain ⟨H1, o1, e1, k1⟩ := setMatrix_inv (nnz := nnz) h ha.1
      obtain ⟨H2, o2, s2, e2, k2⟩ := ih k1 ha.2
      exact ⟨H2, o2, s2, by simpa [exec, step, e1, expected] using by simp [e2], k2⟩
    | apply bs xs =>
      obtain ⟨H1, o1, e1, k1⟩ := apply_inv h ha.1 ha.2.1
      obtain ⟨H2, o2, s2, e2, k2⟩ := ih k1 ha.2.2
      exact ⟨H2, o2, s2, by simp only [exec, step, e1, e2, expected, Res.ok_bind], k2⟩
    | free =>
      obtain ⟨⟨d, rfl⟩, ha⟩ := ha
      obtain ⟨H1, o1, e1, k1, _⟩ := free_some h
      obtain ⟨H2, o2, s2, e2, k2⟩ := ih k1 ha
      exact ⟨H2, o2, s2, by simpa [exec, step, e1, expected] using by simp [e2], k2⟩

theorem destroy_inv {F : Multiset (Nat × Nat)} {H : Heap} {o : Obj} {s : Option (Option (Nat × Nat))} (h : Inv F H o s) :
    ∃ H' i, destroy H o = .ok H' ∧ Holds H' ((i, 1) ::ₘ F) := by
  obtain ⟨H0, o0, e0, ⟨z1, z2, z3, i, hi, k0⟩, hc⟩ := freeIf_inv h
  have t := touch_ok k0 (i := i) (k := 1) (by simp) (le_refl _)
  rw [← hi, hc] at t
  exact ⟨H0, i, by simp [destroy, e0, t, ccs_freeIf_empty H0 z1 z2 z3], k0⟩

end Spqr

namespace Slu

/-- The blocks of the two vector headers. -/
def Vecs (o : Obj) (T : Multiset (Nat × Nat)) : Prop :=
  if ¬ o.first ∧ o.reuse then ∃ b x, o.bStore = .at b ∧ o.xStore = .at x ∧ T = ↑[(b, 1), (x, 1)] else T = 0

/-- The object holds all its blocks. -/
def Owned (F : Multiset (Nat × Nat)) (H : Heap) (o : Obj) (d : Nat × Nat × Bool) : Prop :=
  ∃ nnz v r c as pc pr et R C L U T,
      o.mat = ⟨d.1, d.2.1, nnz, .at v, .at r, .at c⟩ ∧ o.aStore = .at as ∧ o.permc = .at pc ∧ o.permr = .at pr ∧
      o.etree = .at et ∧ o.R = .at R ∧ o.C = .at C ∧ o.L = .at L ∧ o.U = .at U ∧ Vecs o T ∧
      Holds H (↑[(pc, d.2.1), (pr, d.1), (et, d.2.1), (R, d.1), (C, d.2.1), (L, 1), (U, 1)] + (T +
        (↑[(v, nnz), (r, nnz), (c, d.2.1 + 1)] + ((as, 1) ::ₘ F))))

/-- The object has no matrix, or one of `N × M` scalars; `F` are the blocks of everybody else. -/
def Inv (F : Multiset (Nat × Nat)) (H : Heap) (o : Obj) : Held → Prop
  | none => Holds H F ∧ o.mat.N = 0 ∧ o.mat.M = 0 ∧ o.mat.nnz = 0
  | some d => 0 < d.1 + d.2.1 ∧ o.good = d.2.2 ∧ Owned F H o d

theorem free_some {F : Multiset (Nat × Nat)} {H : Heap} {o : Obj} {d : Nat × Nat × Bool} (h : Inv F H o (some d)) :
    ∃ H' o', free H o = .ok (H', o') ∧ Inv F H' o' none := by
  obtain ⟨hd, _, nnz, v, r, c, as, pc, pr, et, R, C, L, U, T, g1, g2, g3, g4, g5, g6, g7, g8, g9, hT, hH⟩ := h
  obtain ⟨H1, e1, k1⟩ := holds_freeAll [(pc, d.2.1), (pr, d.1), (et, d.2.1), (R, d.1), (C, d.2.1), (L, 1), (U, 1)] hH
  simp only [List.map_cons, List.map_nil] at e1
  have hv : ∃ H2, freeVecs H1 o = .ok H2 ∧
      Holds H2 (↑[(v, nnz), (r, nnz), (c, d.2.1 + 1)] + ((as, 1) ::ₘ F)) := by
    unfold Vecs at hT
    unfold freeVecs
    by_cases hc : ¬ o.first ∧ o.reuse
    · rw [if_pos hc] at hT ⊢
      obtain ⟨b, x, hb, hx, rfl⟩ := hT
      obtain ⟨H2, e2, k2⟩ := holds_freeAll [(b, 1), (x, 1)] k1
      exact ⟨H2, by rw [hb, hx]; exact e2, k2⟩
    · rw [if_neg hc] at hT ⊢
      subst hT
      exact ⟨H1, rfl, k1.congr (by simp)⟩
  obtain ⟨H2, e2, k2⟩ := hv
  obtain ⟨H3, e3, k3⟩ := ccs_free (N := d.1) (M := d.2.1) (nnz := nnz) k2
  obtain ⟨H4, e4, k4⟩ := holds_free k3
  refine ⟨H4, { o with mat := ⟨0, 0, 0, .at v, .at r, .at c⟩ }, ?_, k4, rfl, rfl, rfl⟩
  unfold free
  simp only [g3, g4, g5, g6, g7, g8, g9, e1, Res.ok_bind, e2, matFree, g1, e3, g2, e4]

theorem freeIf_inv {F : Multiset (Nat × Nat)} {H : Heap} {o : Obj} {s : Held} (h : Inv F H o s) :
    ∃ H' o', freeIf H o = .ok (H', o') ∧ Inv F H' o' none ∧ o'.reuse = o.reuse := by
  match s, h with
  | none, h =>
    refine ⟨H, o, ?_, h, rfl⟩
    rw [freeIf, if_neg (by have := h.2.1; have := h.2.2.1; omega)]
  | some d, h =>
    obtain ⟨H', o', e, k⟩ := free_some h
    refine ⟨H', o', ?_, k, ?_⟩
    · obtain ⟨hd, _, nnz, v, r, c, as, pc, pr, et, R, C, L, U, T, g1, _⟩ := h
      rw [freeIf, if_pos (by rw [g1]; exact hd), e]
    · unfold free matFree at e
      obtain ⟨_, _, e⟩ := Res.bind_eq_ok.1 e
      obtain ⟨_, _, e⟩ := Res.bind_eq_ok.1 e
      obtain ⟨_, _, e⟩ := Res.bind_eq_ok.1 e
      obtain ⟨_, _, e⟩ := Res.bind_eq_ok.1 e
      cases e
      rfl

theorem setMatrix_owned {F : Multiset (Nat × Nat)} {H : Heap} {o : Obj} {s : Held} (h : Inv F H o s)
    (N M nnz : Nat) (sub g : Bool) (hs : sub = false → N ≤ M) :
    ∃ H' o', setMatrix H o sub N M nnz g = .ok (H', o') ∧ Owned F H' o' (N, M, g) ∧ o'.good = g ∧ o'.mat.nnz = nnz ∧
      o'.first = true := by
  obtain ⟨H0, o0, e0, ⟨k0, z1, z2, z3⟩, _⟩ := freeIf_inv h
  obtain ⟨H1, v, r, c, e1, k1⟩ := ccs_fill k0 N M nnz
  have t0 : H1.touch (.at c) (if sub then M + 1 else N + 1) = .ok () :=
    touch_ok k1 (i := c) (k := M + 1) (by simp) (by cases sub <;> simp at hs ⊢ <;> omega)
  obtain ⟨H2, as, e2, k2⟩ := alloc_ex k1 1
  obtain ⟨H3, pc, e3, k3⟩ := alloc_ex k2 M
  obtain ⟨H4, pr, e4, k4⟩ := alloc_ex k3 N
  obtain ⟨H5, et, e5, k5⟩ := alloc_ex k4 M
  obtain ⟨H6, R, e6, k6⟩ := alloc_ex k5 N
  obtain ⟨H7, C, e7, k7⟩ := alloc_ex k6 M
  obtain ⟨H8, L, e8, k8⟩ := alloc_ex k7 1
  obtain ⟨H9, U, e9, k9⟩ := alloc_ex k8 1
  have t1 := touchAll_sub k7 [(as, 1), (c, M + 1), (r, nnz), (v, nnz)] (by simp)
  simp only [List.map_cons, List.map_nil] at t1
  refine ⟨H9, ⟨⟨N, M, nnz, .at v, .at r, .at c⟩, .at as, .at pc, .at pr, .at et, .at R, .at C, .at L, .at U, .wild, .wild,
    true, o0.reuse, g⟩, ?_, ⟨nnz, v, r, c, as, pc, pr, et, R, C, L, U, 0,
    rfl, rfl, rfl, rfl, rfl, rfl, rfl, rfl, rfl, by simp [Vecs], ?_⟩, rfl, rfl, rfl⟩
  · simp [setMatrix, e0, matFreeIf, z1, z2, z3, e1, t0, decompose, e2, e3, e4, e5, e6, e7, t1, e8, e9]
  · refine k9.congr ?_
    simp only [← Multiset.cons_coe, Multiset.coe_nil, ← Multiset.singleton_add, Multiset.add_zero]
    abel

theorem setMatrix_inv {F : Multiset (Nat × Nat)} {H : Heap} {o : Obj} {s : Held} (h : Inv F H o s)
    {N M nnz : Nat} {sub g : Bool} (hd : 0 < N + M) (hs : sub = false → N ≤ M) :
    ∃ H' o', setMatrix H o sub N M nnz g = .ok (H', o') ∧ Inv F H' o' (some (N, M, g)) := by
  obtain ⟨H', o', e, k, hg, _⟩ := setMatrix_owned h N M nnz sub g hs
  exact ⟨H', o', e, hd, hg, k⟩

theorem solveWith_inv {F : Multiset (Nat × Nat)} {H : Heap} {o : Obj} {d : Nat × Nat × Bool} (h : Inv F H o (some d)) :
    ∃ H' o', solveWith H o = .ok (H', o', .solved d.2.2) ∧ Inv F H' o' (some d) := by
  have h' := h
  obtain ⟨hd, hg, nnz, v, r, c, as, pc, pr, et, R, C, L, U, T, g1, g2, g3, g4, g5, g6, g7, g8, g9, hT, hH⟩ := h
  have hsolve : ∀ (H' : Heap) (S : Multiset (Nat × Nat)) (b x : Nat), Holds H' S →
      (∀ e ∈ [(as, 1), (c, d.2.1 + 1), (r, nnz), (v, nnz), (pc, d.2.1), (pr, d.1), (et, d.2.1), (R, d.1), (C, d.2.1), (L, 1),
        (U, 1), (b, 1), (x, 1)], e ∈ S) → solve H' o (.at b) (.at x) = .ok () := by
    intro H' S b x k hm
    have := touchAll_sub k _ hm
    simpa only [solve, g1, g2, g3, g4, g5, g6, g7, g8, g9, List.map_cons, List.map_nil] using this
  by_cases hr : o.reuse = true
  · by_cases hf : o.first = true
    · have hT0 : T = 0 := by simpa [Vecs, hf] using hT
      subst hT0
      obtain ⟨H1, b, e1, k1⟩ := alloc_ex hH 1
      obtain ⟨H2, x, e2, k2⟩ := alloc_ex k1 1
      have hs := hsolve H2 _ b x k2 (by simp)
      refine ⟨H2, { o with bStore := .at b, xStore := .at x, first := false }, ?_, hd, hg, nnz, v, r, c, as, pc, pr, et, R, C,
        L, U, ↑[(b, 1), (x, 1)], g1, g2, g3, g4, g5, g6, g7, g8, g9, by simp [Vecs, hr], ?_⟩
      · simp [solveWith, hr, hf, e1, e2, hs, hg]
      · refine k2.congr ?_
        simp only [← Multiset.cons_coe, Multiset.coe_nil, ← Multiset.singleton_add, Multiset.add_zero]
        abel
    · have hc : ¬ o.first = true ∧ o.reuse = true := ⟨hf, hr⟩
      unfold Vecs at hT
      rw [if_pos hc] at hT
      obtain ⟨b, x, hb, hx, rfl⟩ := hT
      have hs := hsolve H _ b x hH (by simp)
      have t1 := touchAll_sub hH [(b, 1), (x, 1)] (by simp)
      simp only [List.map_cons, List.map_nil] at t1
      exact ⟨H, o, by simp [solveWith, hr, hf, hb, hx, t1, hs, hg], h'⟩
  · have hT0 : T = 0 := by simpa [Vecs, hr] using hT
    subst hT0
    obtain ⟨H1, b, e1, k1⟩ := alloc_ex hH 1
    obtain ⟨H2, x, e2, k2⟩ := alloc_ex k1 1
    have hs := hsolve H2 _ b x k2 (by simp)
    obtain ⟨H3, e3, k3⟩ := holds_freeAll [(b, 1), (x, 1)] (H := H2) (k2.congr (by
      simp only [← Multiset.cons_coe, Multiset.coe_nil, ← Multiset.singleton_add, Multiset.add_zero]
      rw [← Multiset.add_assoc, Multiset.add_comm {(x, 1)}]))
    simp only [List.map_cons, List.map_nil] at e3
    refine ⟨H3, o, by simp [solveWith, hr, e1, e2, hs, e3, hg], hd, hg, nnz, v, r, c, as, pc, pr, et, R, C,
        L, U, 0, g1, g2, g3, g4, g5, g6, g7, g8, g9, hT, k3.congr ?_⟩
    simp only [← Multiset.cons_coe, Multiset.coe_nil, ← Multiset.singleton_add, Multiset.add_zero]

theorem apply_inv {F : Multiset (Nat × Nat)} {H : Heap} {o : Obj} {s : Held} (h : Inv F H o s) (bd xd : Nat) :
    ∃ H' o', apply H o bd xd = .ok (H', o', expectedApply s (fun N M => bd = N ∧ xd = M)) ∧ Inv F H' o' s := by
  match s, h with
  | none, h =>
    refine ⟨H, o, ?_, h⟩
    obtain ⟨k, z1, z2, z3⟩ := h
    simp only [apply, z1, z2, expectedApply]
    split
    · rfl
    · split <;> simp
  | some d, h =>
    have h' := h
    obtain ⟨H', o', e, k⟩ := solveWith_inv h
    obtain ⟨hd, hg, nnz, v, r, c, as, pc, pr, et, R, C, L, U, T, g1, _⟩ := h
    by_cases hf : bd = d.1 ∧ xd = d.2.1
    · refine ⟨H', o', ?_, k⟩
      have hz : ¬ (d.2.1 + d.1 = 0) := by omega
      simp [apply, g1, hf, hd, e, expectedApply, hz]
      omega
    · refine ⟨H, o, ?_, h'⟩
      have hex : expectedApply (some d) (fun N M => bd = N ∧ xd = M) = .threw .istlError := by
        obtain ⟨N, M, g⟩ := d
        exact if_neg hf
      rw [hex]
      by_cases h1 : d.1 = bd
      · have h2 : d.2.1 ≠ xd := fun e => hf ⟨h1.symm, e.symm⟩
        simp [apply, g1, h1, h2]
      · simp [apply, g1, h1]

theorem applyC_inv {F : Multiset (Nat × Nat)} {H : Heap} {o : Obj} {s : Held} (h : Inv F H o s) :
    ∃ H' o', applyC H o = .ok (H', o', expectedApply s (fun _ _ => True)) ∧ Inv F H' o' s := by
  match s, h with
  | none, h =>
    refine ⟨H, o, ?_, h⟩
    obtain ⟨k, z1, z2, z3⟩ := h
    simp [applyC, z1, z2, expectedApply]
  | some d, h =>
    obtain ⟨H', o', e, k⟩ := solveWith_inv h
    obtain ⟨hd, hg, nnz, v, r, c, as, pc, pr, et, R, C, L, U, T, g1, _⟩ := h
    refine ⟨H', o', ?_, k⟩
    have hz : ¬ (d.1 + d.2.1 = 0) := by omega
    rw [applyC, g1, if_neg hz, e]
    simp [expectedApply]

theorem exec_inv (F : Multiset (Nat × Nat)) (cs : List Op) : ∀ {H : Heap} {o : Obj} {s : Held},
    Inv F H o s → Allowed s cs →
    ∃ H' o' s', exec H o cs = .ok (H', o', expected s cs) ∧ Inv F H' o' s' := by
  induction cs with
  | nil => intro H o s h _; exact ⟨H, o, s, rfl, h⟩
  | cons c cs ih =>
    intro H o s h ha
    cases c with
    | setMatrix sub N M nnz g =>
      obtain ⟨H1, o1, e1, k1⟩ := setMatrix_inv (nnz := nnz) (g := g) h ha.1 ha.2.1
      obtain ⟨H2, o2, s2, e2, k2⟩ := ih k1 ha.2.2
      exact ⟨H2, o2, s2, by simp [exec, step, e1, expected, e2], k2⟩
    | apply bs xs =>
      obtain ⟨H1, o1, e1, k1⟩ := apply_inv h bs xs
      obtain ⟨H2, o2, s2, e2, k2⟩ := ih k1 ha
      exact ⟨H2, o2, s2, by simp only [exec, step, e1, e2, expected, Res.ok_bind], k2⟩
    | applyC =>
      obtain ⟨H1, o1, e1, k1⟩ := applyC_inv h
      obtain ⟨H2, o2, s2, e2, k2⟩ := ih k1 ha
      exact ⟨H2, o2, s2, by simp only [exec, step, e1, e2, expected, Res.ok_bind], k2⟩
    | free =>
      cases s with
      | none => exact absurd rfl ha.1
      | some d =>
        obtain ⟨H1, o1, e1, k1⟩ := free_some h
        obtain ⟨H2, o2, s2, e2, k2⟩ := ih k1 ha.2
        exact ⟨H2, o2, s2, by simp [exec, step, e1, expected, e2], k2⟩

theorem destroy_inv {F : Multiset (Nat × Nat)} {H : Heap} {o : Obj} {s : Held} (h : Inv F H o s) :
    ∃ H', destroy H o = .ok H' ∧ Holds H' F := by
  obtain ⟨H0, o0, e0, ⟨k0, z1, z2, z3⟩, _⟩ := freeIf_inv h
  exact ⟨H0, by simp [destroy, e0, matDestroy, z1, z3, ccs_freeIf_empty H0 z1 z2 z3], k0⟩

end Slu
end Direct
end Istl
