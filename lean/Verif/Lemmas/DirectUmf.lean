import Verif.Lemmas.DirectLdl

/-! The invariant of `UMFPack` objects. -/

namespace Istl
namespace Direct

theorem touchAll_sub {H : Heap} {s : Multiset (Nat × Nat)} (h : Holds H s) (l : List (Nat × Nat)) (hl : ∀ b ∈ l, b ∈ s) :
    H.touchAll (l.map fun b => (.at b.1, b.2)) = .ok () := by
  refine touchAll_ok h _ fun b hb => ?_
  obtain ⟨a, ha, rfl⟩ := List.mem_map.1 hb
  exact .inr ⟨a.1, a.2, rfl, hl a ha, le_refl _⟩

namespace Umf

/-- A library handle and the block behind it. -/
def Hnd (p : Pt) (ok : Bool) (s : Multiset (Nat × Nat)) : Prop :=
  (ok = false ∧ p = .null ∧ s = 0) ∨ ok = true ∧ ∃ i, p = .at i ∧ s = {(i, 1)}

theorem hnd_free {p : Pt} {ok : Bool} {s F : Multiset (Nat × Nat)} {H : Heap} (h : Hnd p ok s) (hH : Holds H (s + F)) :
    ∃ H', H.free p = .ok H' ∧ Holds H' F := by
  rcases h with ⟨_, rfl, rfl⟩ | ⟨_, i, rfl, rfl⟩
  · exact ⟨H, rfl, hH.congr (by simp)⟩
  · exact holds_free (n := 1) (hH.congr (by rw [Multiset.singleton_add]))

theorem hnd_new {F : Multiset (Nat × Nat)} {H : Heap} (h : Holds H F) (ok : Bool) :
    ∃ H' p s, handle H ok = (H', p) ∧ Hnd p ok s ∧ Holds H' (s + F) := by
  cases ok with
  | false => exact ⟨H, .null, 0, by simp [handle], .inl ⟨rfl, rfl, rfl⟩, h.congr (by simp)⟩
  | true =>
    exact ⟨_, _, {(H.next, 1)}, by simp only [handle, if_true]; rfl, .inr ⟨rfl, _, rfl, rfl⟩,
      (holds_alloc h 1).congr (by rw [Multiset.singleton_add])⟩

/-- The object holds a matrix and what the library made of it. -/
def Owned (F : Multiset (Nat × Nat)) (H : Heap) (o : Obj) (N M : Nat) (g : Bool) : Prop :=
  ∃ nnz v r c sp np so S T, o = ⟨⟨N, M, nnz, .at v, .at r, .at c⟩, false, sp, np⟩ ∧
      Hnd sp so S ∧ (Hnd np g T ∧ (g = true → so = true)) ∧ Holds H (S + (↑[(v, nnz), (r, nnz), (c, M + 1)] + (T + F)))

/-- What the object holds; `F` are the blocks of everybody else. -/
def Inv (F : Multiset (Nat × Nat)) (H : Heap) (o : Obj) : Held → Prop
  | .nothing => Holds H F ∧ o.mat.N = 0 ∧ o.mat.M = 0 ∧ o.mat.nnz = 0 ∧ o.loaded = false
  | .matrix N M g => 0 < N ∧ N = M ∧ Owned F H o N M g
  | .file => o.mat.N = 0 ∧ o.mat.M = 0 ∧ o.mat.nnz = 0 ∧ o.loaded = true ∧ ∃ i, o.num = .at i ∧ Holds H ((i, 1) ::ₘ F)

theorem free_inv {F : Multiset (Nat × Nat)} {H : Heap} {o : Obj} {h : Held} (hi : Inv F H o h) (hn : h ≠ .nothing) :
    ∃ H' o', free H o = .ok (H', o') ∧ Inv F H' o' .nothing ∧ o'.num = .null := by
  cases h with
  | nothing => exact absurd rfl hn
  | matrix N M g =>
    obtain ⟨hN, rfl, nnz, v, r, c, sp, np, so, S, T, rfl, hS, ⟨hT, hso⟩, hH⟩ := hi
    obtain ⟨H1, e1, k1⟩ := hnd_free hS hH
    obtain ⟨H2, e2, k2⟩ := ccs_free (N := N) (M := N) (nnz := nnz) k1
    obtain ⟨H3, e3, k3⟩ := hnd_free hT k2
    exact ⟨H3, ⟨⟨0, 0, 0, .at v, .at r, .at c⟩, false, .null, .null⟩, by simp [free, e1, e2, e3],
      ⟨k3, rfl, rfl, rfl, rfl⟩, rfl⟩
  | file =>
    obtain ⟨z1, z2, z3, hl, i, hi, hH⟩ := hi
    obtain ⟨H1, e1, k1⟩ := holds_free hH
    exact ⟨H1, { o with num := .null, loaded := false }, by simp [free, hl, hi, e1], ⟨k1, z1, z2, z3, rfl⟩, rfl⟩

theorem freeIf_inv {F : Multiset (Nat × Nat)} {H : Heap} {o : Obj} {h : Held} (hi : Inv F H o h) :
    ∃ H' o', freeIf H o = .ok (H', o') ∧ Inv F H' o' .nothing ∧ (o.num = .null → o'.num = .null) := by
  cases h with
  | nothing =>
    have hi' := hi
    obtain ⟨k, z1, z2, z3, hl⟩ := hi
    exact ⟨H, o, by rw [freeIf, if_neg (by simp [z1, z2, hl])], hi', fun h => h⟩
  | matrix N M g =>
    obtain ⟨H', o', e, k, n⟩ := free_inv hi (by simp)
    refine ⟨H', o', ?_, k, fun _ => n⟩
    obtain ⟨hN, rfl, nnz, v, r, c, sp, np, so, S, T, rfl, hS, ⟨hT, hso⟩, hH⟩ := hi
    rw [freeIf, if_pos (.inl (by show 0 < N + N; omega)), e]
  | file =>
    obtain ⟨H', o', e, k, n⟩ := free_inv hi (by simp)
    refine ⟨H', o', ?_, k, fun _ => n⟩
    rw [freeIf, if_pos (.inr hi.2.2.2.1), e]

theorem setMatrix_owned {F : Multiset (Nat × Nat)} {H : Heap} {o : Obj} {h : Held} (hi : Inv F H o h)
    (N nnz : Nat) (s n : Bool) :
    ∃ H' o', setMatrix H o false N N nnz s n = .ok (H', o') ∧ Owned F H' o' N N (s && n) ∧ o'.mat.nnz = nnz := by
  obtain ⟨H0, o0, e0, k0, n0⟩ := freeIf_inv hi
  obtain ⟨k0, z1, z2, z3, hl⟩ := k0
  obtain ⟨H1, v, r, c, e1, k1⟩ := ccs_fill k0 N N nnz
  obtain ⟨H2, sp, S, e2, hS, k2⟩ := hnd_new k1 s
  obtain ⟨H3, np, T, e3, hT, k3⟩ := hnd_new k2 (s && n)
  have t1 := touchAll_sub k1 [(c, N + 1), (r, nnz), (v, nnz)] (by simp)
  have t2 := touchAll_sub k2 [(c, N + 1), (r, nnz), (v, nnz)] (by simp)
  simp only [List.map_cons, List.map_nil] at t1 t2
  refine ⟨H3, ⟨⟨N, N, nnz, .at v, .at r, .at c⟩, false, sp, np⟩, ?_, ?_, rfl⟩
  · simp [setMatrix, e0, ccs_freeIf_empty H0 z1 z2 z3, e1, decompose, t1, e2, t2, e3, hl]
  · refine ⟨nnz, v, r, c, sp, np, s, S, T, rfl, hS, ⟨hT, fun h => by cases s <;> simp at h ⊢⟩, k3.congr ?_⟩
    abel

theorem setMatrix_inv {F : Multiset (Nat × Nat)} {H : Heap} {o : Obj} {h : Held} (hi : Inv F H o h) {e : Bool}
    {N M nnz : Nat} {s n : Bool} (hf : Fine e N M) :
    ∃ H' o', setMatrix H o e N M nnz s n = .ok (H', o') ∧ Inv F H' o' (.set e N M s n) ∧
      (e = true → o.num = .null → o'.num = .null) := by
  cases e with
  | true =>
    obtain ⟨H0, o0, e0, k0, n0⟩ := freeIf_inv hi
    exact ⟨H0, o0, by simp [setMatrix, e0], by simpa [Held.set] using k0, fun _ => n0⟩
  | false =>
    obtain ⟨hN, rfl⟩ := hf rfl
    obtain ⟨H', o', e1, k1, _⟩ := setMatrix_owned hi N nnz s n
    exact ⟨H', o', e1, ⟨hN, rfl, k1⟩, by simp⟩

theorem solve_matrix {F : Multiset (Nat × Nat)} {H : Heap} {o : Obj} {N M : Nat} {g : Bool} (hi : Inv F H o (.matrix N M g)) :
    solve H o = .ok (.solved g) := by
  obtain ⟨hN, rfl, nnz, v, r, c, sp, np, so, S, T, rfl, hS, ⟨hT, hso⟩, hH⟩ := hi
  rcases hT with ⟨rfl, rfl, rfl⟩ | ⟨rfl, i, rfl, rfl⟩
  · rfl
  · have t1 := touchAll_sub hH [(i, 1), (c, N + 1), (r, nnz), (v, nnz)] (by simp)
    simp only [List.map_cons, List.map_nil] at t1
    simp [solve, t1]

theorem apply_inv {F : Multiset (Nat × Nat)} {H : Heap} {o : Obj} {h : Held} (hi : Inv F H o h) (bd xd bs : Nat)
    (hb : bd = 0 → bs = 0) : apply H o bd xd bs = .ok (expectedApply h bd xd bs) := by
  cases h with
  | nothing =>
    obtain ⟨k, z1, z2, z3, hl⟩ := hi
    simp only [apply, expectedApply, z1, z2]
    by_cases h1 : bd = 0
    · by_cases h2 : xd = 0
      · simp [h1, h2, hb h1]
      · simp [h1, h2, Ne.symm h2]
    · simp [h1, Ne.symm h1]
  | file =>
    obtain ⟨z1, z2, z3, hl, _⟩ := hi
    simp only [apply, expectedApply, z1, z2]
    by_cases h1 : bd = 0
    · by_cases h2 : xd = 0
      · simp [h1, h2, hb h1]
      · simp [h1, h2, Ne.symm h2]
    · simp [h1, Ne.symm h1]
  | matrix N M g =>
    have hs := solve_matrix hi
    obtain ⟨hN, rfl, nnz, v, r, c, sp, np, so, S, T, rfl, hS, ⟨hT, hso⟩, hH⟩ := hi
    simp only [apply, expectedApply]
    by_cases h1 : N = bd
    · by_cases h2 : N = xd
      · subst h1; subst h2
        simp only [ne_eq, not_true_eq_false, if_false, or_self, hs]
        split <;> rfl
      · subst h1
        simp [h2, Ne.symm h2]
    · simp [h1, Ne.symm h1]

theorem save_inv {F : Multiset (Nat × Nat)} {H : Heap} {o : Obj} {h : Held} (hi : Inv F H o h) (hn : h ≠ .nothing) (io : Bool) :
    save H o io = .ok (expectedSave h io) := by
  cases h with
  | nothing => exact absurd rfl hn
  | matrix N M g =>
    obtain ⟨hN, rfl, nnz, v, r, c, sp, np, so, S, T, rfl, hS, ⟨hT, hso⟩, hH⟩ := hi
    rcases hT with ⟨rfl, rfl, rfl⟩ | ⟨rfl, i, rfl, rfl⟩
    · simp [save, expectedSave]
    · have t1 := touch_ok hH (i := i) (k := 1) (by simp) (le_refl _)
      simp [save, expectedSave, t1]
  | file =>
    obtain ⟨z1, z2, z3, hl, i, hi, hH⟩ := hi
    have t1 := touch_ok hH (i := i) (k := 1) (by simp) (le_refl _)
    simp [save, expectedSave, hi, t1]

theorem exec_inv (F : Multiset (Nat × Nat)) (cs : List Op) : ∀ {H : Heap} {o : Obj} {h : Held},
    Inv F H o h → Allowed h cs → Blocky cs →
    ∃ H' o' h', exec H o cs = .ok (H', o', expected h cs) ∧ Inv F H' o' h' := by
  induction cs with
  | nil => intro H o h hi _ _; exact ⟨H, o, h, rfl, hi⟩
  | cons c cs ih =>
    intro H o h hi ha hb
    cases c with
    | setMatrix e N M nnz s n =>
      obtain ⟨H1, o1, e1, k1, _⟩ := setMatrix_inv (nnz := nnz) (s := s) (n := n) hi ha.1
      obtain ⟨H2, o2, h2, e2, k2⟩ := ih k1 ha.2 hb
      exact ⟨H2, o2, h2, by simp [exec, step, e1, e2, expected], k2⟩
    | setSubMatrix N M nnz s n =>
      obtain ⟨H1, o1, e1, k1, _⟩ := setMatrix_inv (nnz := nnz) (s := s) (n := n) hi ha.1
      obtain ⟨H2, o2, h2, e2, k2⟩ := ih k1 ha.2 hb
      exact ⟨H2, o2, h2, by simp [exec, step, setSubMatrix, e1, e2, expected], k2⟩
    | apply bd xd bs =>
      obtain ⟨H2, o2, h2, e2, k2⟩ := ih hi ha hb.2
      exact ⟨H2, o2, h2, by simp [exec, step, apply_inv hi bd xd bs hb.1, e2, expected], k2⟩
    | applyC =>
      obtain ⟨⟨N, M, g, rfl⟩, ha⟩ := ha
      obtain ⟨H2, o2, h2, e2, k2⟩ := ih hi ha hb
      exact ⟨H2, o2, h2, by simp [exec, step, applyC, solve_matrix hi, e2, expected], k2⟩
    | save io =>
      obtain ⟨H2, o2, h2, e2, k2⟩ := ih hi ha.2 hb
      exact ⟨H2, o2, h2, by simp [exec, step, save_inv hi ha.1 io, e2, expected], k2⟩
    | free =>
      obtain ⟨H1, o1, e1, k1, _⟩ := free_inv hi ha.1
      obtain ⟨H2, o2, h2, e2, k2⟩ := ih k1 ha.2 hb
      exact ⟨H2, o2, h2, by simp [exec, step, e1, e2, expected], k2⟩

theorem destroy_inv {F : Multiset (Nat × Nat)} {H : Heap} {o : Obj} {h : Held} (hi : Inv F H o h) :
    ∃ H', destroy H o = .ok H' ∧ Holds H' F := by
  obtain ⟨H0, o0, e0, ⟨k0, z1, z2, z3, _⟩, _⟩ := freeIf_inv hi
  exact ⟨H0, by simp [destroy, e0, ccs_freeIf_empty H0 z1 z2 z3], k0⟩

theorem ctor_inv {F : Multiset (Nat × Nat)} {H : Heap} (h : Holds H F) : Inv F H ctor .nothing := ⟨h, rfl, rfl, rfl, rfl⟩

theorem create_inv {F : Multiset (Nat × Nat)} {H : Heap} (h : Holds H F) (c : Ctor) (hc : AllowedCtor c) :
    ∃ H' o', create H c = .ok (H', o') ∧
      (match heldBy c, o' with
        | some k, some o => Inv F H' o k
        | none, none => Holds H' F
        | _, _ => False) := by
  cases c with
  | default => exact ⟨H, some ctor, rfl, ctor_inv h⟩
  | matrix e N M nnz s n =>
    obtain ⟨H1, o1, e1, k1, _⟩ := setMatrix_inv (nnz := nnz) (s := s) (n := n) (ctor_inv h) hc
    exact ⟨H1, some o1, by simp [create, e1], k1⟩
  | file ok =>
    cases ok with
    | false => exact ⟨H, none, rfl, h⟩
    | true => exact ⟨_, _, rfl, rfl, rfl, rfl, rfl, _, rfl, holds_alloc h 1⟩
  | fileOr load e N M nnz s n io =>
    cases load with
    | true => exact ⟨_, _, rfl, rfl, rfl, rfl, rfl, _, rfl, holds_alloc h 1⟩
    | false =>
      obtain ⟨hf, hq⟩ := hc rfl
      have h0 : Inv F H { ctor with num := .null } .nothing := ⟨h, rfl, rfl, rfl, rfl⟩
      obtain ⟨H1, o1, e1, k1, n1⟩ := setMatrix_inv (nnz := nnz) (s := s) (n := n) h0 hf
      cases e with
      | true =>
        have hnull := n1 rfl rfl
        have k1' : Inv F H1 o1 .nothing := k1
        obtain ⟨kk, z1, z2, z3, z4⟩ := k1'
        refine ⟨H1, none, ?_, ?_⟩
        · simp [create, ofFileOr, e1, save, hnull, ccs_freeIf_empty H1 z1 z2 z3]
        · simpa [heldBy] using kk
      | false =>
        have hq' : s = true ∧ n = true ∧ io = true := by
          rcases hq with h | h
          · cases h
          · cases s <;> cases n <;> cases io <;> simp at h ⊢
        obtain ⟨rfl, rfl, rfl⟩ := hq'
        have hs := save_inv k1 (by simp [Held.set]) true
        refine ⟨H1, some o1, ?_, ?_⟩
        · simp [create, ofFileOr, e1, hs, expectedSave, Held.set]
        · simpa [heldBy] using k1

end Umf
end Direct
end Istl
