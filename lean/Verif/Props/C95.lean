import Verif.Lemmas.Svg

/-!
# C95: SVG picture of a matrix
-/

namespace Istl
namespace Svg

theorem null_eq : null = 2 ^ 64 - 1 := by unfold null W; rfl

/-- A number has one place. -/
theorem pic_unique {o : Opts} {A : PMat} {wd ht : Nat} {P : List Nat → List Nat → Nat → Nat → Prop} (hP : Pic o A wd ht P) :
    ∀ r c x y x' y', P r c x y → P r c x' y' → x = x' ∧ y = y' := by
  induction hP with
  | leaf n m pat hpat =>
    rintro r c x y x' y' ⟨i, j, _, _, rfl, rfl, rfl, rfl⟩ ⟨i', j', _, _, h1, h2, rfl, rfl⟩
    simp only [List.cons.injEq, and_true] at h1 h2
    subst h1; subst h2; exact ⟨rfl, rfl⟩
  | node n m pat entry w h Q hpat hne0 hblk hw hh ih =>
    rintro r c x y x' y' ⟨i, j, r1, c1, x1, y1, hi, hj, hq, rfl, rfl, rfl, rfl⟩ ⟨i', j', r2, c2, x2, y2, hi', hj', hq', h1, h2, rfl, rfl⟩
    simp only [List.cons.injEq] at h1 h2
    obtain ⟨rfl, rfl⟩ := h1
    obtain ⟨rfl, rfl⟩ := h2
    obtain ⟨e1, e2⟩ := ih i j hi hj _ _ _ _ _ _ hq hq'
    rw [e1, e2]; exact ⟨rfl, rfl⟩

/-- Shown in a window of its own size, the picture is a frame around everything and, for every stored number, exactly one square of the block size,
labelled with the row and column indices of the number, at the place that belongs to them. Nothing is clipped. -/
theorem C95_picture {o : Opts} {A : PMat} {wd ht : Nat} {P : List Nat → List Nat → Nat → Nat → Prop} (h : Pic o A wd ht P)
    (hw : wd < 2 ^ 64 - 1) (hh : ht < 2 ^ 64 - 1) (width height : ℚ) :
    ∃ toks B, writeSVGMatrix o width height A = .ok (header width height (wd, ht), toks) ∧
      draw toks [⟨0, 0, wd, ht, true⟩] = ⟨[], [], false, 0, 0, wd, ht, true⟩ :: B ∧ (∀ b ∈ B, b.fits = true) ∧
      (∀ b, b ∈ B ∧ b.number = true ↔ ∃ r c x y, P r c x y ∧ b = ⟨r, c, true, x, y, o.blockSize, o.blockSize, true⟩) ∧
      ((B.filter fun b => b.number).map fun b => (b.rp, b.cp)).Nodup := by
  rw [← null_eq] at hw hh
  obtain ⟨nums, h1, h2, h3⟩ := pic_draws h hw hh
  obtain ⟨toks, e1, e2⟩ := h3 [] []
  obtain ⟨B, b1, b2, b3⟩ := e2 [] ⟨0, 0, wd, ht, true⟩ [] rfl (le_refl _) (le_refl _)
  refine ⟨toks, B, ?_, ?_, b2, fun b => ?_, ?_⟩
  · unfold writeSVGMatrix; rw [e1]; rfl
  · rw [List.append_nil] at b1
    rw [b1]; simp [draw]
  · have : (b ∈ B ∧ b.number = true) ↔ b ∈ B.filter fun b => b.number := by simp [List.mem_filter]
    rw [this, b3, List.mem_map]
    constructor
    · rintro ⟨t, ht, rfl⟩
      exact ⟨_, _, _, _, (h1 t).mp ht, by simp [toBox]⟩
    · rintro ⟨r, c, x, y, hp, rfl⟩
      exact ⟨(r, c, x, y), (h1 (r, c, x, y)).mpr hp, by simp [toBox]⟩
  · rw [b3, List.map_map]
    refine List.Nodup.map_on ?_ h2
    intro s hs t ht e
    simp only [toBox, Function.comp_apply, List.nil_append, Prod.mk.injEq] at e
    have p1 := (h1 s).mp hs
    have p2 := (h1 t).mp ht
    rw [← e.1, ← e.2] at p2
    obtain ⟨q1, q2⟩ := pic_unique h _ _ _ _ _ _ p1 p2
    exact Prod.ext e.1 (Prod.ext e.2 (Prod.ext q1 q2))

/-- All numbers keep the given space from the border, and any two of them from each other. -/
theorem C95_apart {o : Opts} {A : PMat} {wd ht : Nat} {P : List Nat → List Nat → Nat → Nat → Prop} (h : Pic o A wd ht P) :
    (∀ r c x y, P r c x y → o.interspace ≤ x ∧ x + o.blockSize + o.interspace ≤ wd ∧ o.interspace ≤ y ∧ y + o.blockSize + o.interspace ≤ ht) ∧
    ∀ r c x y r' c' x' y', P r c x y → P r' c' x' y' → (r, c) ≠ (r', c') →
      x + o.blockSize + o.interspace ≤ x' ∨ x' + o.blockSize + o.interspace ≤ x ∨ y + o.blockSize + o.interspace ≤ y' ∨ y' + o.blockSize + o.interspace ≤ y :=
  pic_apart h

/-- The header: if one of width and height is given, the other follows from the shape of the picture and both directions are scaled alike; if both
are given, the picture is stretched to them. -/
theorem C95_header {wd ht : Nat} (hw : 0 < wd) (hh : 0 < ht) (width height : ℚ) :
    (width ≠ 0 → height = 0 → ∃ s : ℚ, s * wd = width ∧ header width height (wd, ht) = some ((⌈width⌉, ⌈s * ht⌉), (s, s))) ∧
    (width = 0 → height ≠ 0 → ∃ s : ℚ, s * ht = height ∧ header width height (wd, ht) = some ((⌈s * wd⌉, ⌈height⌉), (s, s))) ∧
    (width ≠ 0 → height ≠ 0 → ∃ s t : ℚ, s * wd = width ∧ t * ht = height ∧ header width height (wd, ht) = some ((⌈width⌉, ⌈height⌉), (s, t))) := by
  have h1 : (wd : ℚ) ≠ 0 := by exact_mod_cast hw.ne'
  have h2 : (ht : ℚ) ≠ 0 := by exact_mod_cast hh.ne'
  have h0 : ¬ (wd = 0 ∨ ht = 0) := by omega
  refine ⟨fun a b => ⟨width / wd, by field_simp, ?_⟩, fun a b => ⟨height / ht, by field_simp, ?_⟩,
    fun a b => ⟨width / wd, height / ht, by field_simp, by field_simp, ?_⟩⟩
  · simp only [header, if_neg h0, b, a, if_true, if_false, false_and]
    rw [show width * ((ht : ℚ) / wd) = width / wd * ht by ring, show width / wd * ht / ht = width / wd by field_simp]
  · simp only [header, if_neg h0, b, a, if_true, if_false, and_false]
    rw [show height * ((wd : ℚ) / ht) = height / ht * wd by ring, show height / ht * wd / wd = height / ht by field_simp]
  · simp only [header, if_neg h0, b, a, if_false, and_false]

/-- Neither width nor height given: the value 500 chosen for both is overwritten, and the picture has no size. -/
theorem C95_auto_size_counterexample {wd ht : Nat} (hw : 0 < wd) (hh : 0 < ht) : header 0 0 (wd, ht) = some ((0, 0), (0, 0)) := by
  simp [header, hw.ne', hh.ne']

/-- The width of a block column is that of the first block in it: a wider block further down is clipped. -/
theorem C95_clip_counterexample :
    let A : PMat := .node 2 1 (fun _ => [0]) fun i _ => .leaf 1 (2 * i + 1) fun _ => List.range (2 * i + 1)
    ∃ toks, write ⟨10, 5⟩ A [] [] = .ok (toks, (30, 55)) ∧ (⟨[1, 0], [0, 2], true, 40, 35, 10, 10, false⟩ : Box) ∈ draw toks [⟨0, 0, 30, 55, true⟩] := by
  refine ⟨match write ⟨10, 5⟩ (.node 2 1 (fun _ => [0]) fun i _ => .leaf 1 (2 * i + 1) fun _ => List.range (2 * i + 1)) [] [] with
    | .ok r => r.1 | _ => [], ?_, ?_⟩ <;> decide +kernel

/-- A block matrix without stored blocks: the sizes are not defined by any block, and the marker for this is taken as a size. -/
theorem C95_empty_nested_counterexample (b n m : Nat) (hm : 0 < m) (hm2 : m < 2 ^ 64) (hn : 0 < n) (hn2 : n < 2 ^ 64) (entry : Nat → Nat → PMat) :
    ∃ toks, write ⟨b, 0⟩ (.node n m (fun _ => []) entry) [] [] = .ok (toks, (2 ^ 64 - m, 2 ^ 64 - n)) := by
  have hW : W = 2 ^ 64 := by unfold W; rfl
  have hp : ∀ m k, fillNull m (fun _ => null) k = null := by
    intro m k
    unfold fillNull
    obtain ⟨_, _, _, h⟩ := minElem_spec (fun _ => null) m
    rw [if_pos rfl, h]
  have hs : ∀ M m, m < W → partialSums ⟨b, 0⟩ (fillNull M fun _ => null) m = (W - m) % W := by
    intro M m
    induction m with
    | zero => intro _; simp [partialSums]
    | succ m ih =>
      intro h
      rw [partialSums, ih (by omega), hp]
      unfold add null
      dsimp only
      rw [Nat.add_zero, Nat.mod_mod, Nat.add_mod_mod, show W - 1 + (W - m) = W - (m + 1) + W by omega, Nat.add_mod_right]
  have hf : ∀ (X : Type) (n : Nat) (x : X), forRangeM n (fun _ x => (pure x : Res X)) x = .ok x := by
    intro X n x
    induction n with
    | zero => rfl
    | succ n ih => rw [forRangeM_succ, ih]; rfl
  refine ⟨[.rect [] [] false 0 0 (2 ^ 64 - m) (2 ^ 64 - n)], ?_⟩
  simp only [write]
  simp only [List.foldlM_nil]
  rw [hf, Res.ok_bind, hf, Res.ok_bind]
  dsimp only
  rw [hs m m (by omega), hs n n (by omega), Nat.mod_eq_of_lt (by omega), Nat.mod_eq_of_lt (by omega), hW]

/-- Non-vacuity: a 2×2 matrix of 1×1 and 1×2 blocks with an empty block row in between. -/
example : ∃ wd ht P, Pic ⟨10, 5⟩ (.node 2 2 (fun i => if i = 0 then [0, 1] else []) fun _ j => .leaf 1 (j + 1) fun _ => [j]) wd ht P ∧
    wd < 2 ^ 64 - 1 ∧ ht < 2 ^ 64 - 1 ∧ P [0, 0] [1, 1] 50 10 := by
  refine ⟨_, _, _, Pic.node 2 2 _ _ (fun j => start 5 (fun _ => 10) (j + 1)) (fun _ => start 5 (fun _ => 10) 1) (fun i j => fun rp cp x y =>
    ∃ i' j', i' < 1 ∧ j' ∈ [j] ∧ rp = [i'] ∧ cp = [j'] ∧ x = start 5 (fun _ => 10) j' ∧ y = start 5 (fun _ => 10) i') ?_ ?_ ?_ ?_ ?_, ?_, ?_, ?_⟩
  · intro i _; split <;> simp
  · exact ⟨0, by omega, by simp⟩
  · intro i j _ _
    exact Pic.leaf (o := ⟨10, 5⟩) 1 (j + 1) (fun _ => [j]) (by intro i _; simp)
  · intro j hj h
    exact absurd (show j ∈ if (0 : Nat) = 0 then [0, 1] else [] by simp; omega) (h 0 (by omega))
  · intro i hi h
    exact ⟨⟨0, by omega, by simp, rfl⟩, fun k _ _ => le_refl _⟩
  · decide
  · decide
  · exact ⟨0, 1, [0], [1], 20, 5, by omega, by simp, ⟨0, 1, by omega, by simp, rfl, rfl, by decide, by decide⟩, rfl, rfl, by decide, by decide⟩

end Svg
end Istl
