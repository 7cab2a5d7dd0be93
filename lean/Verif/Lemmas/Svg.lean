import Verif.Spec.Svg
import Verif.Lemmas.Vec

namespace Istl
namespace Svg
open Finset

theorem foldlM_flat {X Y : Type} (f : X → Y → Res X) (g : Nat → X → Res X) (l : Nat → List Y) (hg : ∀ i x, g i x = (l i).foldlM f x) :
    ∀ (n : Nat) (x : X), forRangeM n g x = ((List.range n).flatMap l).foldlM f x
  | 0, x => rfl
  | n + 1, x => by
    rw [forRangeM_succ, foldlM_flat f g l hg n x, List.range_succ, List.flatMap_append, List.foldlM_append]
    congr 1
    funext y
    rw [hg]; simp

theorem foldlM_inv {X Y : Type} (f : X → Y → Res X) (I : List Y → X → Prop) : ∀ (post pre : List Y) (x : X), I pre x →
    (∀ p y x, y ∈ post → I p x → ∃ x', f x y = .ok x' ∧ I (p ++ [y]) x') → ∃ x', post.foldlM f x = .ok x' ∧ I (pre ++ post) x'
  | [], pre, x, h, _ => ⟨x, rfl, by simpa using h⟩
  | y :: post, pre, x, h, hs => by
    obtain ⟨x1, h1, h2⟩ := hs pre y x (by simp) h
    obtain ⟨x2, h3, h4⟩ := foldlM_inv f I post (pre ++ [y]) x1 h2 (fun p z u hz => hs p z u (by simp [hz]))
    refine ⟨x2, ?_, by simpa using h4⟩
    rw [List.foldlM_cons, h1]; exact h3

theorem W_pos : 0 < W := by unfold W; decide

theorem add_eq {a b : Nat} (h : a + b < W) : add a b = a + b := Nat.mod_eq_of_lt h
theorem mul_eq {a b : Nat} (h : a * b < W) : mul a b = a * b := Nat.mod_eq_of_lt h

theorem sub_eq {a b : Nat} (h : b ≤ a) (ha : a < W) : sub a b = a - b := by
  unfold sub
  rw [Nat.mod_eq_of_lt (show b < W by omega), show a + (W - b) = (a - b) + W by omega, Nat.add_mod_right, Nat.mod_eq_of_lt (by omega)]

theorem sub_sub_eq {a b c : Nat} (h : a + (b + c) < W) : sub (sub (a + (b + c)) a) c = b := by
  rw [sub_eq (a := a + (b + c)) (by omega) h, Nat.add_sub_cancel_left, sub_eq (by omega) (by omega), Nat.add_sub_cancel]

theorem start_succ (s : Nat) (w : Nat → Nat) (k : Nat) : start s w (k + 1) = start s w k + (w k + s) := by
  unfold start; rw [Finset.sum_range_succ]; omega

theorem start_mono (s : Nat) (w : Nat → Nat) {j m : Nat} (h : j < m) : start s w j + w j + s ≤ start s w m := by
  induction m with
  | zero => omega
  | succ m ih =>
    rw [start_succ]
    rcases Nat.lt_succ_iff_lt_or_eq.mp h with h | h
    · have := ih h; omega
    · subst h; omega

theorem start_ge (s : Nat) (w : Nat → Nat) (j : Nat) : s ≤ start s w j := Nat.le_add_right _ _

theorem start_le (s : Nat) (w : Nat → Nat) {j m : Nat} (h : j ≤ m) : start s w j ≤ start s w m := by
  rcases Nat.lt_or_eq_of_le h with h | h
  · have := start_mono s w h; omega
  · rw [h]

theorem start_const (s b k : Nat) : start s (fun _ => b) k = s + k * (s + b) := by
  unfold start
  rw [Finset.sum_const, Finset.card_range, smul_eq_mul, Nat.add_comm b s]

theorem leaf_pos (o : Opts) {m j : Nat} (h : j < m) (hb : start o.interspace (fun _ => o.blockSize) m < W) :
    add o.interspace (mul j (add o.interspace o.blockSize)) = start o.interspace (fun _ => o.blockSize) j := by
  have h1 := start_mono o.interspace (fun _ => o.blockSize) h
  have h2 := start_ge o.interspace (fun _ => o.blockSize) j
  have h3 := start_const o.interspace o.blockSize j
  have h4 : j * (o.interspace + o.blockSize) < W := by omega
  rw [add_eq (a := o.interspace) (b := o.blockSize) (by omega), mul_eq h4, add_eq (by omega), h3]

theorem leaf_total (o : Opts) (m : Nat) (hb : start o.interspace (fun _ => o.blockSize) m < W) :
    add o.interspace (mul m (add o.blockSize o.interspace)) = start o.interspace (fun _ => o.blockSize) m := by
  rw [start_const] at hb ⊢
  cases m with
  | zero =>
    have : mul 0 (add o.blockSize o.interspace) = 0 := by unfold mul; rw [Nat.zero_mul, Nat.zero_mod]
    rw [this, add_eq (by omega)]; simp
  | succ m =>
    have : o.interspace + o.blockSize ≤ (m + 1) * (o.interspace + o.blockSize) := Nat.le_mul_of_pos_left _ (by omega)
    rw [add_eq (a := o.blockSize) (by omega), Nat.add_comm o.blockSize, mul_eq (by omega), add_eq (by omega)]

theorem partialSums_eq (o : Opts) (d w : Nat → Nat) (m : Nat) (hd : ∀ k, k < m → d (k + 1) = w k) (hb : start o.interspace w m < W) :
    ∀ k, k ≤ m → partialSums o d k = start o.interspace w k
  | 0, _ => by simp [partialSums, start]
  | k + 1, hk => by
    have h1 := start_le o.interspace w hk
    rw [start_succ] at h1
    rw [partialSums, partialSums_eq o d w m hd hb k (by omega), hd k (by omega), add_eq (a := start _ _ _) (by omega), add_eq (by omega), start_succ]
    omega

theorem minElem_spec (d : Nat → Nat) : ∀ m, (∀ k, k ≤ m → minElem m d ≤ d k) ∧ ∃ k, k ≤ m ∧ minElem m d = d k
  | 0 => ⟨fun k hk => by rw [Nat.le_zero.mp hk]; exact le_refl _, 0, le_refl _, rfl⟩
  | m + 1 => by
    obtain ⟨h1, k, h2, h3⟩ := minElem_spec d m
    have e : minElem (m + 1) d = if d (m + 1) < minElem m d then d (m + 1) else minElem m d := by
      unfold minElem; rw [forRange_succ]
    rw [e]
    by_cases h : d (m + 1) < minElem m d
    · rw [if_pos h]
      refine ⟨fun j hj => ?_, m + 1, le_refl _, rfl⟩
      rcases Nat.lt_or_eq_of_le hj with hj | hj
      · exact le_trans (le_of_lt h) (h1 j (by omega))
      · rw [hj]
    · rw [if_neg h]
      refine ⟨fun j hj => ?_, k, by omega, h3⟩
      rcases Nat.lt_or_eq_of_le hj with hj | hj
      · exact h1 j (by omega)
      · rw [hj]; omega

/-- Sizes found in a pass over the stored positions, then filled up. -/
theorem filled {m : Nat} {d w : Nat → Nat} {vis : Nat → Prop} [DecidablePred vis] (h0 : d 0 = null) (hd : ∀ k, k < m → d (k + 1) = if vis k then w k else null)
    (hlt : ∀ k, k < m → w k < null) (hw : ∀ j, j < m → ¬ vis j → (∃ k, k < m ∧ vis k ∧ w j = w k) ∧ ∀ k, k < m → vis k → w j ≤ w k) :
    ∀ k, k < m → fillNull m d (k + 1) = w k := by
  intro k hk
  unfold fillNull
  by_cases hv : vis k
  · have : d (k + 1) = w k := by rw [hd k hk, if_pos hv]
    have := hlt k hk
    rw [if_neg (by omega)]; assumption
  · rw [if_pos (by rw [hd k hk, if_neg hv])]
    obtain ⟨⟨k1, h1, h2, h3⟩, h4⟩ := hw k hk hv
    obtain ⟨g1, k2, g2, g3⟩ := minElem_spec d m
    have e1 := g1 (k1 + 1) (by omega)
    rw [hd k1 h1, if_pos h2] at e1
    have hl := hlt k1 h1
    cases k2 with
    | zero => rw [h0] at g3; omega
    | succ k2 =>
      rw [hd k2 (by omega)] at g3
      by_cases hv2 : vis k2
      · rw [if_pos hv2] at g3
        have := h4 k2 (by omega) hv2
        omega
      · rw [if_neg hv2] at g3; omega

theorem mem_positions {n : Nat} {pat : Nat → List Nat} {p : Nat × Nat} : p ∈ positions n pat ↔ p.1 < n ∧ p.2 ∈ pat p.1 := by
  unfold positions
  simp only [List.mem_flatMap, List.mem_range, List.mem_map]
  constructor
  · rintro ⟨i, hi, j, hj, rfl⟩; exact ⟨hi, hj⟩
  · rintro ⟨h1, h2⟩; exact ⟨p.1, h1, p.2, h2, rfl⟩

theorem nodup_positions {n : Nat} {pat : Nat → List Nat} (h : ∀ i, i < n → (pat i).Nodup) : (positions n pat).Nodup := by
  unfold positions
  rw [List.nodup_flatMap]
  refine ⟨fun i hi => (h i (List.mem_range.mp hi)).map (fun a b e => by injection e), ?_⟩
  refine List.Pairwise.imp_of_mem (fun {a b} _ _ hab => ?_) List.nodup_range
  intro p hp hq
  simp only [List.mem_map] at hp hq
  obtain ⟨_, _, rfl⟩ := hp
  obtain ⟨_, _, e⟩ := hq
  injection e with e
  exact hab e.symm

/-- A number in the list of numbers, as a box. -/
def toBox (o : Opts) (rp cp : List Nat) (v : View) (t : List Nat × List Nat × Nat × Nat) : Box :=
  ⟨rp ++ t.1, cp ++ t.2.1, true, v.ox + t.2.2.1, v.oy + t.2.2.2, o.blockSize, o.blockSize, true⟩

/-- The elements `toks` draw the numbers `nums` in a picture of the given size. -/
def Draws (o : Opts) (wd ht : Nat) (nums : List (List Nat × List Nat × Nat × Nat)) (rp cp : List Nat) (toks : List Tok) : Prop :=
  ∀ (rest : List Tok) (v : View) (vs : List View), v.ok = true → wd ≤ v.w → ht ≤ v.h →
    ∃ B : List Box, draw (toks ++ rest) (v :: vs) = ⟨rp, cp, false, v.ox, v.oy, wd, ht, true⟩ :: B ++ draw rest (v :: vs) ∧ (∀ b ∈ B, b.fits = true) ∧
      B.filter (fun b => b.number) = nums.map (toBox o rp cp v)

theorem draw_rect (rp cp : List Nat) (num : Bool) (x y w h : Nat) (l : List Tok) (v : View) (vs : List View) (hv : v.ok = true) (hx : x + w ≤ v.w)
    (hy : y + h ≤ v.h) : draw (.rect rp cp num x y w h :: l) (v :: vs) = ⟨rp, cp, num, v.ox + x, v.oy + y, w, h, true⟩ :: draw l (v :: vs) := by
  rw [draw, hv, decide_eq_true hx, decide_eq_true hy]; rfl

theorem draw_leaf (o : Opts) {n m : Nat} (hw : start o.interspace (fun _ => o.blockSize) m < W)
    (hh : start o.interspace (fun _ => o.blockSize) n < W) (rp cp : List Nat) (v : View) (vs : List View) (hv : v.ok = true)
    (h1 : start o.interspace (fun _ => o.blockSize) m ≤ v.w) (h2 : start o.interspace (fun _ => o.blockSize) n ≤ v.h) (rest : List Tok) :
    ∀ L : List (Nat × Nat), (∀ p ∈ L, p.1 < n ∧ p.2 < m) →
      draw ((L.map fun p => Tok.rect (rp ++ [p.1]) (cp ++ [p.2]) true (add o.interspace (mul p.2 (add o.interspace o.blockSize)))
        (add o.interspace (mul p.1 (add o.interspace o.blockSize))) o.blockSize o.blockSize) ++ rest) (v :: vs) =
      (L.map fun p => toBox o rp cp v ([p.1], [p.2], start o.interspace (fun _ => o.blockSize) p.2, start o.interspace (fun _ => o.blockSize) p.1)) ++
        draw rest (v :: vs)
  | [], _ => rfl
  | p :: L, h => by
    obtain ⟨hp1, hp2⟩ := h p (by simp)
    have e1 := start_mono o.interspace (fun _ => o.blockSize) hp1
    have e2 := start_mono o.interspace (fun _ => o.blockSize) hp2
    rw [List.map_cons, List.cons_append, leaf_pos o hp2 hw, leaf_pos o hp1 hh]
    rw [draw_rect _ _ _ _ _ _ _ _ v vs hv (by omega) (by omega)]
    rw [draw_leaf o hw hh rp cp v vs hv h1 h2 rest L (fun q hq => h q (by simp [hq])), List.map_cons, List.cons_append]
    rfl

theorem pic_draws {o : Opts} {A : PMat} {wd ht : Nat} {P : List Nat → List Nat → Nat → Nat → Prop} (hP : Pic o A wd ht P) :
    wd < null → ht < null → ∃ nums : List (List Nat × List Nat × Nat × Nat), (∀ t, t ∈ nums ↔ P t.1 t.2.1 t.2.2.1 t.2.2.2) ∧ nums.Nodup ∧
      ∀ rp cp, ∃ toks, write o A rp cp = .ok (toks, (wd, ht)) ∧ Draws o wd ht nums rp cp toks := by
  induction hP with
  | leaf n m pat hpat =>
    intro hwd hht
    have hnW : null ≤ W := Nat.sub_le _ _
    refine ⟨(positions n pat).map fun p => ([p.1], [p.2], start o.interspace (fun _ => o.blockSize) p.2, start o.interspace (fun _ => o.blockSize) p.1),
      ?_, ?_, ?_⟩
    · rintro ⟨r, c, x, y⟩
      simp only [List.mem_map, mem_positions]
      constructor
      · rintro ⟨p, ⟨h1, h2⟩, h3⟩
        simp only [Prod.mk.injEq] at h3
        obtain ⟨rfl, rfl, rfl, rfl⟩ := h3
        exact ⟨p.1, p.2, h1, h2, rfl, rfl, rfl, rfl⟩
      · rintro ⟨i, j, h1, h2, rfl, rfl, rfl, rfl⟩
        exact ⟨(i, j), ⟨h1, h2⟩, rfl⟩
    · refine (nodup_positions (fun i hi => (hpat i hi).1)).map (fun p q e => ?_)
      simp only [Prod.mk.injEq, List.cons.injEq, and_true] at e
      exact Prod.ext e.1 e.2.1
    · intro rp cp
      refine ⟨Tok.rect rp cp false 0 0 (start o.interspace (fun _ => o.blockSize) m) (start o.interspace (fun _ => o.blockSize) n) :: leafRects o n pat rp cp, ?_, ?_⟩
      · simp only [write, leafSize]
        rw [leaf_total o m (by omega), leaf_total o n (by omega)]
      · intro rest v vs hv h1 h2
        have := draw_leaf o (n := n) (m := m) (by omega) (by omega) rp cp v vs hv h1 h2 rest (positions n pat)
          (fun p hp => ⟨(mem_positions.mp hp).1, (hpat _ (mem_positions.mp hp).1).2 _ (mem_positions.mp hp).2⟩)
        refine ⟨(positions n pat).map fun p => toBox o rp cp v ([p.1], [p.2], start o.interspace (fun _ => o.blockSize) p.2,
          start o.interspace (fun _ => o.blockSize) p.1), ?_, ?_, ?_⟩
        · rw [List.cons_append, draw_rect _ _ _ _ _ _ _ _ v vs hv (by omega) (by omega)]
          unfold leafRects
          rw [this]
          rfl
        · intro b hb
          simp only [List.mem_map] at hb
          obtain ⟨p, _, rfl⟩ := hb
          rfl
        · rw [List.filter_eq_self.mpr (by
            intro b hb
            simp only [List.mem_map] at hb
            obtain ⟨p, _, rfl⟩ := hb
            rfl), List.map_map]
          rfl
  | node n m pat entry w h Q hpat hne hblk hw hh ih =>
    intro hwd hht
    have hnW : null ≤ W := Nat.sub_le _ _
    have hwj : ∀ j, j < m → w j < null := fun j hj => by have := start_mono o.interspace w hj; omega
    have hhi : ∀ i, i < n → h i < null := fun i hi => by have := start_mono o.interspace h hi; omega
    have hmem : ∀ i j, i < n → j ∈ pat i → j < m := fun i j hi hj => (hpat i hi).2 j hj
    -- the numbers in the blocks
    have hex : ∀ p : Nat × Nat, ∃ nums : List (List Nat × List Nat × Nat × Nat), p ∈ positions n pat →
        (∀ t, t ∈ nums ↔ Q p.1 p.2 t.1 t.2.1 t.2.2.1 t.2.2.2) ∧ nums.Nodup ∧
        ∀ rp cp, ∃ toks, write o (entry p.1 p.2) rp cp = .ok (toks, (w p.2, h p.1)) ∧ Draws o (w p.2) (h p.1) nums rp cp toks := by
      intro p
      by_cases hp : p ∈ positions n pat
      · obtain ⟨h1, h2⟩ := mem_positions.mp hp
        obtain ⟨nums, g⟩ := ih p.1 p.2 h1 h2 (hwj _ (hmem _ _ h1 h2)) (hhi _ h1)
        exact ⟨nums, fun _ => g⟩
      · exact ⟨[], fun h => absurd h hp⟩
    choose nums hnums using hex
    have hshift : ∀ p : Nat × Nat, ∃ f : List Nat × List Nat × Nat × Nat → List Nat × List Nat × Nat × Nat,
        f = fun t => (p.1 :: t.1, p.2 :: t.2.1, start o.interspace w p.2 + t.2.2.1, start o.interspace h p.1 + t.2.2.2) := fun p => ⟨_, rfl⟩
    choose sh hsh using hshift
    refine ⟨(positions n pat).flatMap fun p => (nums p).map (sh p), ?_, ?_, ?_⟩
    · rintro ⟨r, c, x, y⟩
      simp only [List.mem_flatMap, List.mem_map]
      constructor
      · rintro ⟨p, hp, ⟨r', c', x', y'⟩, ht, he⟩
        rw [hsh] at he
        simp only [Prod.mk.injEq] at he
        obtain ⟨rfl, rfl, rfl, rfl⟩ := he
        obtain ⟨h1, h2⟩ := mem_positions.mp hp
        exact ⟨p.1, p.2, r', c', x', y', h1, h2, ((hnums p hp).1 _).mp ht, rfl, rfl, rfl, rfl⟩
      · rintro ⟨i, j, r', c', x', y', h1, h2, hq, rfl, rfl, rfl, rfl⟩
        have hp : (i, j) ∈ positions n pat := mem_positions.mpr ⟨h1, h2⟩
        exact ⟨(i, j), hp, (r', c', x', y'), ((hnums _ hp).1 (r', c', x', y')).mpr hq, by rw [hsh]⟩
    · rw [List.nodup_flatMap]
      refine ⟨fun p hp => (hnums p hp).2.1.map (fun a b e => ?_), ?_⟩
      · rw [hsh] at e
        simp only [Prod.mk.injEq, List.cons.injEq, true_and] at e
        refine Prod.ext e.1 (Prod.ext e.2.1 (Prod.ext (by omega) (by omega)))
      · refine List.Pairwise.imp_of_mem (fun {a b} _ _ hab => ?_) (nodup_positions (fun i hi => (hpat i hi).1))
        intro t h1 h2
        simp only [List.mem_map] at h1 h2
        obtain ⟨u, _, rfl⟩ := h1
        obtain ⟨u', _, e⟩ := h2
        rw [hsh, hsh] at e
        simp only [Prod.mk.injEq, List.cons.injEq] at e
        exact hab (Prod.ext e.1.1.symm e.2.1.1.symm)
    · intro rp cp
      simp only [write]
      -- first pass
      rw [foldlM_flat (Y := Nat × Nat) (fun (d : (Nat → Nat) × (Nat → Nat)) p => do
        let r ← write o (entry p.1 p.2) (rp ++ [0]) (cp ++ [0])
        let c ← setFirst m p.2 r.2.1 d.1
        let w ← setFirst n p.1 r.2.2 d.2
        .ok (c, w)) _ (fun i => (pat i).map fun j => (i, j)) (fun i x => by rw [List.foldlM_map]) n]
      rw [show ((List.range n).flatMap fun i => (pat i).map fun j => (i, j)) = positions n pat from rfl]
      obtain ⟨d, hd1, hd2⟩ := foldlM_inv (fun (d : (Nat → Nat) × (Nat → Nat)) (p : Nat × Nat) => do
        let r ← write o (entry p.1 p.2) (rp ++ [0]) (cp ++ [0])
        let c ← setFirst m p.2 r.2.1 d.1
        let w ← setFirst n p.1 r.2.2 d.2
        .ok (c, w)) (fun L d => d.1 0 = null ∧ d.2 0 = null ∧ (∀ k, k < m → d.1 (k + 1) = if ∃ p ∈ L, p.2 = k then w k else null) ∧
          ∀ k, k < n → d.2 (k + 1) = if ∃ p ∈ L, p.1 = k then h k else null) (positions n pat) [] (fun _ => null, fun _ => null)
        ⟨rfl, rfl, fun k _ => by simp, fun k _ => by simp⟩ (by
          rintro L p ⟨c, r⟩ hp ⟨i1, i2, i3, i4⟩
          dsimp only at i1 i2 i3 i4 ⊢
          obtain ⟨h1, h2⟩ := mem_positions.mp hp
          obtain ⟨toks, e1, _⟩ := (hnums p hp).2.2 (rp ++ [0]) (cp ++ [0])
          have hpm := hmem _ _ h1 h2
          rw [e1, Res.ok_bind]
          simp only [setFirst, if_pos hpm, if_pos h1, Res.ok_bind]
          refine ⟨_, rfl, ?_, ?_, ?_, ?_⟩
          · dsimp only; split
            · simp only [upd]; rw [if_neg (by omega)]; exact i1
            · exact i1
          · dsimp only; split
            · simp only [upd]; rw [if_neg (by omega)]; exact i2
            · exact i2
          · intro k hk
            dsimp only
            have hor : (∃ q ∈ L ++ [p], q.2 = k) ↔ (∃ q ∈ L, q.2 = k) ∨ p.2 = k := by
              simp only [List.mem_append, List.mem_singleton]
              constructor
              · rintro ⟨q, hq | rfl, e⟩
                · exact Or.inl ⟨q, hq, e⟩
                · exact Or.inr e
              · rintro (⟨q, hq, e⟩ | e)
                · exact ⟨q, Or.inl hq, e⟩
                · exact ⟨p, Or.inr rfl, e⟩
            simp only [hor]
            by_cases hk2 : p.2 = k
            · subst hk2
              rw [if_pos (Or.inr rfl)]
              by_cases hv : ∃ q ∈ L, q.2 = p.2
              · have := i3 p.2 hk
                rw [if_pos hv] at this
                rw [if_neg (by have := hwj p.2 hk; omega)]; exact this
              · have := i3 p.2 hk
                rw [if_neg hv] at this
                rw [if_pos this]; simp [upd]
            · have he : ((∃ q ∈ L, q.2 = k) ∨ p.2 = k) ↔ ∃ q ∈ L, q.2 = k := ⟨fun h => h.resolve_right hk2, Or.inl⟩
              simp only [he]
              rw [← i3 k hk]
              split
              · simp only [upd]; rw [if_neg (by omega)]
              · rfl
          · intro k hk
            dsimp only
            have hor : (∃ q ∈ L ++ [p], q.1 = k) ↔ (∃ q ∈ L, q.1 = k) ∨ p.1 = k := by
              simp only [List.mem_append, List.mem_singleton]
              constructor
              · rintro ⟨q, hq | rfl, e⟩
                · exact Or.inl ⟨q, hq, e⟩
                · exact Or.inr e
              · rintro (⟨q, hq, e⟩ | e)
                · exact ⟨q, Or.inl hq, e⟩
                · exact ⟨p, Or.inr rfl, e⟩
            simp only [hor]
            by_cases hk2 : p.1 = k
            · subst hk2
              rw [if_pos (Or.inr rfl)]
              by_cases hv : ∃ q ∈ L, q.1 = p.1
              · have := i4 p.1 hk
                rw [if_pos hv] at this
                rw [if_neg (by have := hhi p.1 hk; omega)]; exact this
              · have := i4 p.1 hk
                rw [if_neg hv] at this
                rw [if_pos this]; simp [upd]
            · have he : ((∃ q ∈ L, q.1 = k) ∨ p.1 = k) ↔ ∃ q ∈ L, q.1 = k := ⟨fun h => h.resolve_right hk2, Or.inl⟩
              simp only [he]
              rw [← i4 k hk]
              split
              · simp only [upd]; rw [if_neg (by omega)]
              · rfl)
      rw [hd1, Res.ok_bind]
      rw [List.nil_append] at hd2
      obtain ⟨z1, z2, z3, z4⟩ := hd2
      have hcol : ∀ k, k < m → fillNull m d.1 (k + 1) = w k := filled z1 z3 hwj (fun j hj hv => by
        have hnone : ∀ i, i < n → j ∉ pat i := fun i hi hm => hv ⟨(i, j), mem_positions.mpr ⟨hi, hm⟩, rfl⟩
        obtain ⟨⟨k, a1, ⟨i, a2, a3⟩, a4⟩, a5⟩ := hw j hj hnone
        refine ⟨⟨k, a1, ⟨(i, k), mem_positions.mpr ⟨a2, a3⟩, rfl⟩, a4⟩, ?_⟩
        rintro k hk ⟨p, hp, rfl⟩
        exact a5 p.2 hk ⟨p.1, (mem_positions.mp hp).1, (mem_positions.mp hp).2⟩)
      have hrow : ∀ k, k < n → fillNull n d.2 (k + 1) = h k := filled z2 z4 hhi (fun i hi hv => by
        have hnone : pat i = [] := by
          cases hc : pat i with
          | nil => rfl
          | cons a l => exact absurd ⟨(i, a), mem_positions.mpr ⟨hi, by dsimp only; rw [hc]; simp⟩, rfl⟩ hv
        obtain ⟨⟨k, a1, a2, a3⟩, a4⟩ := hh i hi hnone
        obtain ⟨c, hc⟩ := List.exists_mem_of_ne_nil _ a2
        refine ⟨⟨k, a1, ⟨(k, c), mem_positions.mpr ⟨a1, hc⟩, rfl⟩, a3⟩, ?_⟩
        rintro k hk ⟨p, hp, rfl⟩
        exact a4 p.1 hk (List.ne_nil_of_mem (mem_positions.mp hp).2))
      have hX := partialSums_eq o _ w m hcol (by omega)
      have hY := partialSums_eq o _ h n hrow (by omega)
      -- second pass
      rw [foldlM_flat (Y := Nat × Nat) (fun (l : List Tok) p => do
        let r ← write o (entry p.1 p.2) (rp ++ [p.1]) (cp ++ [p.2])
        .ok (l ++ [.begin (partialSums o (fillNull m d.1) p.2) (partialSums o (fillNull n d.2) p.1)
          (sub (sub (partialSums o (fillNull m d.1) (p.2 + 1)) (partialSums o (fillNull m d.1) p.2)) o.interspace)
          (sub (sub (partialSums o (fillNull n d.2) (p.1 + 1)) (partialSums o (fillNull n d.2) p.1)) o.interspace)] ++ r.1 ++ [.finish]))
        _ (fun i => (pat i).map fun j => (i, j)) (fun i x => by rw [List.foldlM_map]) n]
      rw [show ((List.range n).flatMap fun i => (pat i).map fun j => (i, j)) = positions n pat from rfl]
      obtain ⟨l, hl1, hl2⟩ := foldlM_inv (fun (l : List Tok) (p : Nat × Nat) => do
        let r ← write o (entry p.1 p.2) (rp ++ [p.1]) (cp ++ [p.2])
        .ok (l ++ [.begin (partialSums o (fillNull m d.1) p.2) (partialSums o (fillNull n d.2) p.1)
          (sub (sub (partialSums o (fillNull m d.1) (p.2 + 1)) (partialSums o (fillNull m d.1) p.2)) o.interspace)
          (sub (sub (partialSums o (fillNull n d.2) (p.1 + 1)) (partialSums o (fillNull n d.2) p.1)) o.interspace)] ++ r.1 ++ [.finish]))
        (fun L l => ∀ (rest : List Tok) (v : View) (vs : List View), v.ok = true → start o.interspace w m ≤ v.w → start o.interspace h n ≤ v.h →
          ∃ B : List Box, draw (l ++ rest) (v :: vs) = B ++ draw rest (v :: vs) ∧ (∀ b ∈ B, b.fits = true) ∧
            B.filter (fun b => b.number) = (L.flatMap fun p => (nums p).map (sh p)).map (toBox o rp cp v))
        (positions n pat) [] [] (fun rest v vs _ _ _ => ⟨[], rfl, by simp, rfl⟩) (by
          intro L p l hp hI
          obtain ⟨h1, h2⟩ := mem_positions.mp hp
          have hpm := hmem _ _ h1 h2
          obtain ⟨toks, e1, e2⟩ := (hnums p hp).2.2 (rp ++ [p.1]) (cp ++ [p.2])
          rw [e1, Res.ok_bind]
          refine ⟨_, rfl, fun rest v vs hv hv1 hv2 => ?_⟩
          have mw := start_mono o.interspace w hpm
          have mh := start_mono o.interspace h h1
          have lw := start_le o.interspace w (show p.2 + 1 ≤ m by omega)
          have lh := start_le o.interspace h (show p.1 + 1 ≤ n by omega)
          rw [start_succ] at lw lh
          rw [hX _ (by omega), hX _ (by omega), hY _ (by omega), hY _ (by omega)]
          have ew : sub (sub (start o.interspace w (p.2 + 1)) (start o.interspace w p.2)) o.interspace = w p.2 := by
            rw [start_succ, sub_sub_eq (by omega)]
          have eh : sub (sub (start o.interspace h (p.1 + 1)) (start o.interspace h p.1)) o.interspace = h p.1 := by
            rw [start_succ, sub_sub_eq (by omega)]
          rw [ew, eh]
          obtain ⟨B1, b1, b2, b3⟩ := hI (Tok.begin (start o.interspace w p.2) (start o.interspace h p.1) (w p.2) (h p.1) :: (toks ++ (Tok.finish :: rest))) v vs hv hv1 hv2
          obtain ⟨B2, c1, c2, c3⟩ := e2 (Tok.finish :: rest) ⟨v.ox + start o.interspace w p.2, v.oy + start o.interspace h p.1, w p.2, h p.1, true⟩ (v :: vs) rfl (le_refl _) (le_refl _)
          refine ⟨B1 ++ (⟨rp ++ [p.1], cp ++ [p.2], false, v.ox + start o.interspace w p.2, v.oy + start o.interspace h p.1, w p.2, h p.1, true⟩ :: B2), ?_, ?_, ?_⟩
          · rw [show l ++ [Tok.begin (start o.interspace w p.2) (start o.interspace h p.1) (w p.2) (h p.1)] ++ toks ++ [Tok.finish] ++ rest =
              l ++ (Tok.begin (start o.interspace w p.2) (start o.interspace h p.1) (w p.2) (h p.1) :: (toks ++ (Tok.finish :: rest))) by simp, b1]
            rw [draw, hv, decide_eq_true (by omega), decide_eq_true (by omega)]
            rw [show (true && true && true) = true from rfl, c1, draw]
            simp
          · intro b hb
            rcases List.mem_append.mp hb with hb | hb
            · exact b2 b hb
            · rcases List.mem_cons.mp hb with hb | hb
              · rw [hb]
              · exact c2 b hb
          · rw [List.filter_append, b3, List.filter_cons_of_neg (by simp), c3, List.flatMap_append, List.map_append, List.flatMap_singleton, List.map_map]
            congr 1
            refine List.map_congr_left (fun t _ => ?_)
            rw [hsh]
            simp only [toBox, Function.comp_apply, List.append_assoc, List.singleton_append, Nat.add_assoc])
      rw [hl1, Res.ok_bind, hX m (le_refl _), hY n (le_refl _)]
      refine ⟨_, rfl, fun rest v vs hv hv1 hv2 => ?_⟩
      rw [List.nil_append] at hl2
      obtain ⟨B, b1, b2, b3⟩ := hl2 rest v vs hv hv1 hv2
      refine ⟨B, ?_, b2, b3⟩
      rw [List.cons_append, draw_rect _ _ _ _ _ _ _ _ v vs hv (by omega) (by omega), b1]
      rfl

/-- Two different numbers are at least one space apart. -/
theorem pic_apart {o : Opts} {A : PMat} {wd ht : Nat} {P : List Nat → List Nat → Nat → Nat → Prop} (hP : Pic o A wd ht P) :
    (∀ r c x y, P r c x y → o.interspace ≤ x ∧ x + o.blockSize + o.interspace ≤ wd ∧ o.interspace ≤ y ∧ y + o.blockSize + o.interspace ≤ ht) ∧
    ∀ r c x y r' c' x' y', P r c x y → P r' c' x' y' → (r, c) ≠ (r', c') →
      x + o.blockSize + o.interspace ≤ x' ∨ x' + o.blockSize + o.interspace ≤ x ∨ y + o.blockSize + o.interspace ≤ y' ∨ y' + o.blockSize + o.interspace ≤ y := by
  have sep : ∀ (w : Nat → Nat) (a b : Nat), a ≠ b → start o.interspace w a + w a + o.interspace ≤ start o.interspace w b ∨
      start o.interspace w b + w b + o.interspace ≤ start o.interspace w a := by
    intro w a b hab
    rcases Nat.lt_or_gt_of_ne hab with h | h
    · exact Or.inl (start_mono _ _ h)
    · exact Or.inr (start_mono _ _ h)
  induction hP with
  | leaf n m pat hpat =>
    constructor
    · rintro r c x y ⟨i, j, hi, hj, rfl, rfl, rfl, rfl⟩
      have h1 := start_mono o.interspace (fun _ => o.blockSize) hi
      have h2 := start_mono o.interspace (fun _ => o.blockSize) ((hpat i hi).2 j hj)
      exact ⟨start_ge _ _ _, h2, start_ge _ _ _, h1⟩
    · rintro r c x y r' c' x' y' ⟨i, j, hi, hj, rfl, rfl, rfl, rfl⟩ ⟨i', j', hi', hj', rfl, rfl, rfl, rfl⟩ hne
      by_cases h1 : j = j'
      · by_cases h2 : i = i'
        · subst h1; subst h2; exact absurd rfl hne
        · rcases sep (fun _ => o.blockSize) i i' h2 with h | h
          · exact Or.inr (Or.inr (Or.inl h))
          · exact Or.inr (Or.inr (Or.inr h))
      · rcases sep (fun _ => o.blockSize) j j' h1 with h | h
        · exact Or.inl h
        · exact Or.inr (Or.inl h)
  | node n m pat entry w h Q hpat hne0 hblk hw hh ih =>
    constructor
    · rintro r c x y ⟨i, j, r1, c1, x1, y1, hi, hj, hq, rfl, rfl, rfl, rfl⟩
      have h1 := start_mono o.interspace h hi
      have h2 := start_mono o.interspace w ((hpat i hi).2 j hj)
      have h3 := (ih i j hi hj).1 _ _ _ _ hq
      have h4 := start_ge o.interspace w j
      have h5 := start_ge o.interspace h i
      omega
    · rintro r c x y r' c' x' y' ⟨i, j, r1, c1, x1, y1, hi, hj, hq, rfl, rfl, rfl, rfl⟩ ⟨i', j', r2, c2, x2, y2, hi', hj', hq', rfl, rfl, rfl, rfl⟩ hne
      have a1 := (ih i j hi hj).1 _ _ _ _ hq
      have a2 := (ih i' j' hi' hj').1 _ _ _ _ hq'
      by_cases h1 : j = j'
      · by_cases h2 : i = i'
        · subst h1; subst h2
          have := (ih i j hi hj).2 _ _ _ _ _ _ _ _ hq hq' (fun e => by
            simp only [Prod.mk.injEq] at e
            exact hne (by rw [e.1, e.2]))
          omega
        · rcases sep h i i' h2 with h | h <;> omega
      · rcases sep w j j' h1 with h | h <;> omega

end Svg
end Istl
