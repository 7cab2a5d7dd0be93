import Verif.Spec.Fcg
import Verif.Lemmas.Gpcg

/-! # Flexible CG: the sequence of states, and the properties of the directions -/

namespace Istl
namespace Solver
variable {K Rl X : Type} [Field K] [LinearOrder K] [IsStrictOrderedRing K] [AddCommGroup X] [Module K X] [Zero Rl] [Mul Rl]
variable {B : X → X → K} {W : Submodule K X} {A : Module.End K X} {E : Env K Rl X}

/-! ### Sequences of steps with a given rule for the directions -/

/-- Sequences as computed, without the minimality. -/
structure FlexSeq (B : X → X → K) (W : Submodule K X) (A : Module.End K X) (prec : Nat → X → X) (first : Nat → Nat) (c : X)
    (x b p : Nat → X) : Prop where
  b0 : b 0 = c - A (x 0)
  mono : ∀ k, first k ≤ first (k + 1)
  le : ∀ k, first k ≤ k
  mem : ∀ k, p k ∈ W
  dir : ∀ k, ∃ q ∈ Submodule.span K (p '' {j | first k ≤ j ∧ j < k}), p k = prec k (b k) + q
  conj : ∀ k j, first k ≤ j → j < k → B (A (p j)) (p k) = 0
  stepx : ∀ k, x (k + 1) = x k + (B (p k) (b k) / B (p k) (A (p k))) • p k
  stepb : ∀ k, b (k + 1) = b k + (-(B (p k) (b k) / B (p k) (A (p k)))) • A (p k)

variable {first : Nat → Nat} {c : X} {x b p : Nat → X}

theorem FlexSeq.defect (F : FlexSeq B W A E.prec first c x b p) (k : Nat) : b k = c - A (x k) := by
  induction k with
  | zero => exact F.b0
  | succ k ih => rw [F.stepx, F.stepb, map_add, map_smul, neg_smul, ih]; abel

theorem FlexSeq.orth (H : SpdProblem B W A E) (F : FlexSeq B W A E.prec first c x b p) :
    ∀ k j, first k ≤ j → j ≤ k → B (b (k + 1)) (p j) = 0 := by
  have hB := H.prod
  have step : ∀ k, (∀ j, first k ≤ j → j < k → B (b k) (p j) = 0) → ∀ j, first k ≤ j → j ≤ k → B (b (k + 1)) (p j) = 0 := by
    intro k ih j h1 h2
    rw [F.stepb, hB.add, hB.smul]
    by_cases h : j = k
    · subst h
      rw [hB.symm (p j) (A _), hB.symm (p j) (b j)]
      by_cases h0 : B (A (p j)) (p j) = 0
      · rw [H.zero_of (F.mem j) h0, map_zero, hB.zero, hB.symm, hB.zero]; simp
      · field_simp
        ring
    · rw [ih j h1 (by omega)]
      have : B (A (p k)) (p j) = 0 := by
        rw [H.symm, hB.symm]
        exact F.conj k j h1 (by omega)
      rw [this]; ring
  intro k
  induction k with
  | zero => exact step 0 (fun j _ h => absurd h (by omega))
  | succ k ih => exact step (k + 1) (fun j h1 h2 => ih j ((F.mono k).trans h1) (by omega))

theorem FlexSeq.before (H : SpdProblem B W A E) (F : FlexSeq B W A E.prec first c x b p) (k j : Nat) (h1 : first k ≤ j) (h2 : j < k) :
    B (b k) (p j) = 0 := by
  cases k with
  | zero => omega
  | succ k => exact F.orth H k j ((F.mono k).trans h1) (by omega)

theorem FlexSeq.span (F : FlexSeq B W A E.prec first c x b p) (m k : Nat) (h : m ≤ k) :
    x (k + 1) - x m ∈ Submodule.span K (p '' {j | m ≤ j ∧ j ≤ k}) := by
  induction k with
  | zero =>
    obtain rfl : m = 0 := by omega
    rw [F.stepx, add_sub_cancel_left]
    exact Submodule.smul_mem _ _ (Submodule.subset_span ⟨0, ⟨le_refl _, le_refl _⟩, rfl⟩)
  | succ k ih =>
    rw [F.stepx]
    by_cases hm : m = k + 1
    · subst hm
      rw [add_sub_cancel_left]
      exact Submodule.smul_mem _ _ (Submodule.subset_span ⟨k + 1, ⟨le_refl _, le_refl _⟩, rfl⟩)
    · rw [add_sub_right_comm]
      refine Submodule.add_mem _ (Submodule.span_mono (Set.image_mono fun j hj => And.intro hj.1 (Nat.le_succ_of_le hj.2)) (ih (by omega))) ?_
      exact Submodule.smul_mem _ _ (Submodule.subset_span ⟨k + 1, ⟨h, le_refl _⟩, rfl⟩)

theorem FlexSeq.flexRun (H : SpdProblem B W A E) (F : FlexSeq B W A E.prec first c x b p) (n : Nat) :
    FlexRun B W A E.prec first c (x 0) n x b p := by
  refine ⟨rfl, fun k _ => F.defect k, fun k _ => F.mem k, fun k _ => F.dir k, fun k _ => F.conj k, ?_, fun k _ => F.orth H k, ?_⟩
  · intro k _
    rw [F.stepx, add_sub_cancel_left]
    exact Submodule.smul_mem _ _ (Submodule.mem_span_singleton_self _)
  · intro k _ z hz
    have hzx : z - x (k + 1) ∈ Submodule.span K (p '' {j | first k ≤ j ∧ j ≤ k}) := by
      have := Submodule.sub_mem _ hz (F.span (first k) k (F.le k))
      rwa [sub_sub_sub_cancel_right] at this
    have ho : B (b (k + 1)) (z - x (k + 1)) = 0 :=
      orth_span H.prod (by rintro _ ⟨j, ⟨h1, h2⟩, rfl⟩; exact F.orth H k j h1 h2) _ hzx
    have hq := quad_add H.prod H.symm c (x (k + 1)) (z - x (k + 1))
    rw [add_sub_cancel, ← F.defect, ho] at hq
    have hW : z - x (k + 1) ∈ W := by
      refine (Submodule.span_le.mpr ?_ : Submodule.span K (p '' {j | first k ≤ j ∧ j ≤ k}) ≤ W) hzx
      rintro _ ⟨j, _, rfl⟩; exact F.mem j
    have hpos : 0 ≤ B (A (z - x (k + 1))) (z - x (k + 1)) := by
      by_cases h0 : z - x (k + 1) = 0
      · rw [h0, map_zero, H.prod.zero]
      · exact (H.pos _ hW h0).le
    rw [hq]
    linarith

/-! ### One orthogonalisation -/

/-- The loop of both `orthogonalizations` functions: slots `s < n` with `c s`, none of them the slot being filled. -/
theorem orth_loop (H : SpdProblem B W A E) (st : FcSt K X Rl) (n ib : Nat) (c : Nat → Prop) [DecidablePred c] (w : X) (hw : w ∈ W)
    (d0 : Nat → X) (hd0 : d0 ib = w)
    (hne : ∀ s, s < n → c s → s ≠ ib) (hmem : ∀ s, s < n → c s → d0 s ∈ W) (had : ∀ s, s < n → c s → st.ad s = A (d0 s))
    (hdad : ∀ s, s < n → c s → st.dad s = B (d0 s) (A (d0 s)))
    (hconj : ∀ s t, s < n → t < n → c s → c t → s ≠ t → B (A (d0 s)) (d0 t) = 0) (d' : Nat → X)
    (hd' : d' = forRange n (fun k d => if c k then upd d ib (d ib + (-(E.dot (st.ad k) w / st.dad k)) • d k) else d) d0) :
    (∀ s, s ≠ ib → d' s = d0 s) ∧ d' ib ∈ W ∧ (∃ q ∈ Submodule.span K (d0 '' {s | s < n ∧ c s}), d' ib = w + q) ∧
      ∀ s, s < n → c s → B (A (d0 s)) (d' ib) = 0 := by
  have hB := H.prod
  let f : Nat → (Nat → X) → (Nat → X) := fun k d => if c k then upd d ib (d ib + (-(E.dot (st.ad k) w / st.dad k)) • d k) else d
  have key : ∀ m ≤ n, (∀ s, s ≠ ib → forRange m f d0 s = d0 s) ∧ forRange m f d0 ib ∈ W ∧
      (∃ q ∈ Submodule.span K (d0 '' {s | s < m ∧ c s}), forRange m f d0 ib = w + q) ∧
      (∀ s, s < m → c s → B (A (d0 s)) (forRange m f d0 ib) = 0) ∧
      ∀ s, m ≤ s → s < n → c s → B (A (d0 s)) (forRange m f d0 ib) = B (A (d0 s)) w := by
    intro m
    induction m with
    | zero =>
      intro _
      refine ⟨fun s _ => rfl, by rw [forRange_zero, hd0]; exact hw, ⟨0, Submodule.zero_mem _, by rw [forRange_zero, hd0, add_zero]⟩,
        fun s hs => absurd hs (by omega), fun s _ _ _ => by rw [forRange_zero, hd0]⟩
    | succ m ih =>
      intro hm
      obtain ⟨h1, h2, ⟨q, hq, e⟩, h4, h5⟩ := ih (by omega)
      rw [forRange_succ]
      by_cases hc : c m
      · have hmi := hne m (by omega) hc
        have ef : f m (forRange m f d0) = upd (forRange m f d0) ib
            (forRange m f d0 ib + (-(B (A (d0 m)) w / B (A (d0 m)) (d0 m))) • d0 m) := by
          show (if c m then _ else _) = _
          rw [if_pos hc, h1 m hmi, H.dot, had m (by omega) hc, hdad m (by omega) hc, hB.symm (d0 m)]
        rw [ef]
        refine ⟨fun s hs => by rw [upd_ne _ _ hs]; exact h1 s hs, ?_, ?_, ?_, ?_⟩
        · rw [upd_same]
          exact W.add_mem h2 (W.smul_mem _ (hmem m (by omega) hc))
        · refine ⟨q + (-(B (A (d0 m)) w / B (A (d0 m)) (d0 m))) • d0 m, ?_, by rw [upd_same, e, add_assoc]⟩
          refine Submodule.add_mem _ (Submodule.span_mono (Set.image_mono fun s hs => And.intro (Nat.lt_succ_of_lt hs.1) hs.2) hq) ?_
          exact Submodule.smul_mem _ _ (Submodule.subset_span ⟨m, ⟨Nat.lt_succ_self m, hc⟩, rfl⟩)
        · intro s hs hcs
          rw [upd_same, hB.add', hB.smul']
          by_cases hsm : s = m
          · subst hsm
            rw [h5 s (le_refl _) (by omega) hcs]
            by_cases h0 : B (A (d0 s)) (d0 s) = 0
            · rw [h0, H.zero_of (hmem s (by omega) hcs) h0, map_zero, hB.zero]; simp
            · field_simp
              ring
          · rw [h4 s (by omega) hcs, hconj s m (by omega) (by omega) hcs hc hsm]; ring
        · intro s hs1 hs2 hcs
          rw [upd_same, hB.add', hB.smul', h5 s (by omega) hs2 hcs, hconj s m hs2 (by omega) hcs hc (by omega)]
          ring
      · have ef : f m (forRange m f d0) = forRange m f d0 := if_neg hc
        rw [ef]
        refine ⟨h1, h2, ⟨q, Submodule.span_mono (Set.image_mono fun s hs => And.intro (Nat.lt_succ_of_lt hs.1) hs.2) hq, e⟩, ?_, ?_⟩
        · intro s hs hcs
          by_cases hsm : s = m
          · subst hsm; exact absurd hcs hc
          · exact h4 s (by omega) hcs
        · intro s hs1 hs2 hcs
          exact h5 s (by omega) hs2 hcs
  obtain ⟨h1, h2, h3, h4, _⟩ := key n (le_refl _)
  subst hd'
  exact ⟨h1, h2, h3, h4⟩

/-! ### The sequence of states -/

/-- Start a new cycle when the arrays are full. -/
def fcNorm (mmax : Nat) (cycle : FcSt K X Rl → Nat × FcSt K X Rl) (q : Nat × FcSt K X Rl) : Nat × FcSt K X Rl :=
  if q.1 ≤ mmax then q else cycle q.2

/-- The state after `k` steps, before a new cycle is started. -/
def fcRaw (E : Env K Rl X) (orth : Nat → X → FcSt K X Rl → FcSt K X Rl) (cycle : FcSt K X Rl → Nat × FcSt K X Rl) (mmax : Nat)
    (st : FcSt K X Rl) : Nat → Nat × FcSt K X Rl
  | 0 => (0, st)
  | k + 1 => ((fcNorm mmax cycle (fcRaw E orth cycle mmax st k)).1 + 1,
      fcStep E orth (k + 1) (fcNorm mmax cycle (fcRaw E orth cycle mmax st k)).1 (fcNorm mmax cycle (fcRaw E orth cycle mmax st k)).2)

/-- The state before step `k + 1`. -/
def fcSeq (E : Env K Rl X) (orth : Nat → X → FcSt K X Rl → FcSt K X Rl) (cycle : FcSt K X Rl → Nat × FcSt K X Rl) (mmax : Nat)
    (st : FcSt K X Rl) (k : Nat) : Nat × FcSt K X Rl := fcNorm mmax cycle (fcRaw E orth cycle mmax st k)

/-- Direction `k`. -/
def fcDir (E : Env K Rl X) (orth : Nat → X → FcSt K X Rl → FcSt K X Rl) (cycle : FcSt K X Rl → Nat × FcSt K X Rl) (mmax : Nat)
    (st : FcSt K X Rl) (k : Nat) : X := (fcRaw E orth cycle mmax st (k + 1)).2.d (fcSeq E orth cycle mmax st k).1

end Solver
end Istl
