import Verif.Lemmas.Fcg

/-! # Flexible CG: the two ways of storing directions -/

namespace Istl
namespace Solver
variable {K Rl X : Type} [Field K] [LinearOrder K] [IsStrictOrderedRing K] [AddCommGroup X] [Module K X] [Zero Rl] [Mul Rl]
variable {B : X → X → K} {W : Submodule K X} {A : Module.End K X} {E : Env K Rl X}

section Seq
variable {orth : Nat → X → FcSt K X Rl → FcSt K X Rl} {cycle : FcSt K X Rl → Nat × FcSt K X Rl} {m : Nat} {st : FcSt K X Rl}

theorem fcRaw_succ (k : Nat) : fcRaw E orth cycle m st (k + 1) =
    ((fcSeq E orth cycle m st k).1 + 1, fcStep E orth (k + 1) (fcSeq E orth cycle m st k).1 (fcSeq E orth cycle m st k).2) := rfl

theorem fcSeq_x (hcyc : ∀ s, (cycle s).2.x = s.x ∧ (cycle s).2.b = s.b) (k : Nat) :
    (fcSeq E orth cycle m st k).2.x = (fcRaw E orth cycle m st k).2.x ∧ (fcSeq E orth cycle m st k).2.b = (fcRaw E orth cycle m st k).2.b := by
  unfold fcSeq fcNorm
  split
  · exact ⟨rfl, rfl⟩
  · exact hcyc _

/-- The slot `s` holds direction `j`, with its image and energy. -/
def Holds (B : X → X → K) (A : Module.End K X) (p : Nat → X) (st : FcSt K X Rl) (s j : Nat) : Prop :=
  st.d s = p j ∧ st.ad s = A (p j) ∧ st.dad s = B (p j) (A (p j))

/-- The rule of the new state, given what the orthogonalisation does. -/
theorem flexSeq_of (H : SpdProblem B W A E) (hcyc : ∀ s, (cycle s).2.x = s.x ∧ (cycle s).2.b = s.b)
    (horth : ∀ ib w s, (orth ib w s).x = s.x ∧ (orth ib w s).b = s.b)
    (first : Nat → Nat) (c : X) (hb0 : st.b = c - A st.x) (mono : ∀ k, first k ≤ first (k + 1)) (le : ∀ k, first k ≤ k)
    (mem : ∀ k, fcDir E orth cycle m st k ∈ W)
    (dir : ∀ k, ∃ q ∈ Submodule.span K (fcDir E orth cycle m st '' {j | first k ≤ j ∧ j < k}),
      fcDir E orth cycle m st k = E.prec k (fcSeq E orth cycle m st k).2.b + q)
    (conj : ∀ k j, first k ≤ j → j < k → B (A (fcDir E orth cycle m st j)) (fcDir E orth cycle m st k) = 0) :
    FlexSeq B W A E.prec first c (fun k => (fcSeq E orth cycle m st k).2.x) (fun k => (fcSeq E orth cycle m st k).2.b)
      (fcDir E orth cycle m st) := by
  have h0 : (fcSeq E orth cycle m st 0) = (0, st) := by
    simp only [fcSeq, fcNorm, fcRaw, Nat.zero_le, if_true]
  refine ⟨?_, mono, le, mem, dir, conj, fun k => ?_, fun k => ?_⟩
  · show (fcSeq E orth cycle m st 0).2.b = c - A (fcSeq E orth cycle m st 0).2.x
    rw [h0]; exact hb0
  · show (fcSeq E orth cycle m st (k + 1)).2.x = _
    rw [(fcSeq_x hcyc (k + 1)).1]
    show (fcStep E orth (k + 1) (fcSeq E orth cycle m st k).1 (fcSeq E orth cycle m st k).2).x = _
    simp only [fcStep, H.dot, H.op, (horth _ _ _).1, (horth _ _ _).2]
    rfl
  · show (fcSeq E orth cycle m st (k + 1)).2.b = _
    rw [(fcSeq_x hcyc (k + 1)).2]
    show (fcStep E orth (k + 1) (fcSeq E orth cycle m st k).1 (fcSeq E orth cycle m st k).2).b = _
    simp only [fcStep, H.dot, H.op, (horth _ _ _).2]
    rfl

end Seq

/-! ### RestartedFCGSolver -/

theorem cycleStart_step {m k : Nat} (hm : 1 ≤ m) : cycleStart m k ≤ k ∧ k - cycleStart m k ≤ m ∧ (1 ≤ k → 1 ≤ k - cycleStart m k) ∧
    (k - cycleStart m k < m → cycleStart m (k + 1) = cycleStart m k) ∧
    (k - cycleStart m k = m → cycleStart m (k + 1) = k) := by
  unfold cycleStart
  have h1 := Nat.div_add_mod (k - 1) m
  have h2 := Nat.mod_lt (k - 1) (show 0 < m by omega)
  have h3 : (k + 1 - 1) = k := by omega
  rw [h3]
  rw [Nat.mul_comm] at h1
  set q := (k - 1) / m with hq
  refine ⟨by omega, by omega, by omega, ?_, ?_⟩
  · intro h
    by_cases hk : k = 0
    · subst hk; simp [hq]
    · have : k / m = q := by
        rw [Nat.div_eq_iff (by omega)]
        constructor
        · omega
        · omega
      rw [this]
  · intro h
    have : k = (q + 1) * m := by rw [Nat.add_mul]; omega
    rw [this, Nat.mul_div_cancel _ (by omega)]

theorem cycleStart_le {m k : Nat} (hm : 1 ≤ m) : cycleStart m k ≤ cycleStart m (k + 1) := by
  obtain ⟨h1, h2, _, h3, h4⟩ := cycleStart_step (k := k) hm
  rcases Nat.lt_or_ge (k - cycleStart m k) m with h | h
  · rw [h3 h]
  · rw [h4 (by omega)]; exact h1

/-- Slots and directions of the restarted method. -/
structure RInv (B : X → X → K) (W : Submodule K X) (A : Module.End K X) (p : Nat → X) (m k : Nat) (q : Nat × FcSt K X Rl) : Prop where
  ib : q.1 = k - cycleStart m k
  holds : ∀ s < q.1, Holds B A p q.2 s (cycleStart m k + s)

theorem fcStep_slots {orth : Nat → X → FcSt K X Rl → FcSt K X Rl} (H : SpdProblem B W A E) (i ib : Nat) (st : FcSt K X Rl)
    (horth : ∀ w s, (orth ib w s).ad = s.ad ∧ (orth ib w s).dad = s.dad) (p : Nat → X) (k : Nat)
    (hk : (fcStep E orth i ib st).d ib = p k) :
    Holds B A p (fcStep E orth i ib st) ib k ∧
      ∀ s j, s ≠ ib → (fcStep E orth i ib st).d s = st.d s → Holds B A p st s j → Holds B A p (fcStep E orth i ib st) s j := by
  refine ⟨⟨hk, ?_, ?_⟩, ?_⟩
  · rw [← hk]; simp only [fcStep, H.op, upd_same]
  · rw [← hk]; simp only [fcStep, H.op, H.dot, upd_same]
  · rintro s j hs hd ⟨h1, h2, h3⟩
    refine ⟨hd.trans h1, ?_, ?_⟩
    · rw [← h2]; simp only [fcStep, upd_ne _ _ hs, (horth _ _).1]
    · rw [← h3]; simp only [fcStep, upd_ne _ _ hs, (horth _ _).2]

section Restarted
variable {m : Nat} {st : FcSt K X Rl}

local notation "rseq" => fcSeq E (fcOrthRestarted E) (fcCycleRestarted m) m st
local notation "rraw" => fcRaw E (fcOrthRestarted E) (fcCycleRestarted m) m st
local notation "rdir" => fcDir E (fcOrthRestarted E) (fcCycleRestarted m) m st

theorem restarted_all (H : SpdProblem B W A E) (hm : 1 ≤ m) (c : X) (hb0 : st.b = c - A st.x) (hbW : st.b ∈ W) (k : Nat) :
    RInv B W A rdir m k (rseq k) ∧ (rseq k).2.b ∈ W ∧ (∀ j < k, rdir j ∈ W) ∧
    (∀ i < k, ∃ q ∈ Submodule.span K (rdir '' {j | cycleStart m i ≤ j ∧ j < i}), rdir i = E.prec i (rseq i).2.b + q) ∧
    (∀ i < k, ∀ j, cycleStart m i ≤ j → j < i → B (A (rdir j)) (rdir i) = 0) := by
  have hB := H.prod
  induction k with
  | zero =>
    have h0 : rseq 0 = (0, st) := by
      simp only [fcSeq, fcNorm, fcRaw, Nat.zero_le, if_true]
    refine ⟨⟨?_, fun s hs => ?_⟩, by rw [h0]; exact hbW, fun j h => absurd h (by omega), fun j h => absurd h (by omega),
      fun j h => absurd h (by omega)⟩
    · rw [h0]; simp [cycleStart]
    · rw [h0] at hs; exact absurd hs (by simp)
  | succ k ih =>
    obtain ⟨R, hb, hW, hdir, hconj⟩ := ih
    obtain ⟨c1, c2, c3, c4, c5⟩ := cycleStart_step (k := k) hm
    set S := rseq k with hS
    have hib := R.ib
    -- the direction
    have hd' : ((rraw (k + 1)).2.d) = forRange S.1 (fun k' d => if True then
        upd d S.1 (d S.1 + (-(E.dot (S.2.ad k') (E.prec k S.2.b) / S.2.dad k')) • d k') else d) (upd S.2.d S.1 (E.prec k S.2.b)) := by
      rw [fcRaw_succ]
      simp only [if_true]
      rfl
    have hold : ∀ s, s < S.1 → upd S.2.d S.1 (E.prec k S.2.b) s = rdir (cycleStart m k + s) := fun s hs => by
      rw [upd_ne _ _ (by omega)]; exact (R.holds s hs).1
    have hmono : ∀ a b, a ≤ b → cycleStart m a ≤ cycleStart m b := fun a b h =>
      monotone_nat_of_le_succ (f := cycleStart m) (fun n => cycleStart_le hm) h
    have pair : ∀ i j, cycleStart m k ≤ i → cycleStart m k ≤ j → i < k → j < k → i ≠ j → B (A (rdir i)) (rdir j) = 0 := by
      intro i j hi hj hik hjk hij
      rcases Nat.lt_or_gt_of_ne hij with h | h
      · exact hconj j hjk i ((hmono j k (by omega)).trans hi) h
      · rw [H.symm, hB.symm]
        exact hconj i hik j ((hmono i k (by omega)).trans hj) h
    obtain ⟨o1, o2, ⟨q, hq, o3⟩, o4⟩ := orth_loop H S.2 S.1 S.1 (fun _ => True) (E.prec k S.2.b) (H.prec _ _ hb)
      (upd S.2.d S.1 (E.prec k S.2.b)) (upd_same _ _ _) (fun s hs _ => by omega)
      (fun s hs _ => by rw [hold s hs]; exact hW _ (by omega)) (fun s hs _ => by rw [hold s hs]; exact (R.holds s hs).2.1)
      (fun s hs _ => by rw [hold s hs]; exact (R.holds s hs).2.2)
      (fun s t hs ht _ _ hst => by rw [hold s hs, hold t ht]; exact pair _ _ (by omega) (by omega) (by omega) (by omega) (by omega))
      _ hd'
    have epk : (rraw (k + 1)).2.d S.1 = rdir k := rfl
    rw [epk] at o2 o3 o4
    obtain ⟨s1, s2⟩ := fcStep_slots (orth := fcOrthRestarted E) H (k + 1) S.1 S.2 (fun _ _ => ⟨rfl, rfl⟩) rdir k rfl
    have hhold : ∀ s < S.1 + 1, Holds B A rdir (rraw (k + 1)).2 s (cycleStart m k + s) := by
      intro s hs
      by_cases h : s = S.1
      · subst h
        rw [show cycleStart m k + S.1 = k by omega]
        exact s1
      · refine s2 s _ h ?_ (R.holds s (by omega))
        show (rraw (k + 1)).2.d s = _
        rw [o1 s h, upd_ne _ _ h]
    have hraw1 : (rraw (k + 1)).1 = S.1 + 1 := rfl
    refine ⟨⟨?_, ?_⟩, ?_, ?_, ?_, ?_⟩
    · show (fcNorm m (fcCycleRestarted m) (rraw (k + 1))).1 = _
      unfold fcNorm
      rw [hraw1]
      split
      · rw [hraw1, c4 (by omega)]; omega
      · rw [c5 (by omega)]
        show 1 = _
        omega
    · show ∀ s < (fcNorm m (fcCycleRestarted m) (rraw (k + 1))).1, Holds B A rdir (fcNorm m (fcCycleRestarted m) (rraw (k + 1))).2 s _
      unfold fcNorm
      rw [hraw1]
      split
      · rw [c4 (by omega)]
        intro s hs
        exact hhold s (by rw [hraw1] at hs; exact hs)
      · rw [c5 (by omega)]
        intro s hs
        obtain rfl : s = 0 := by
          have : s < 1 := hs
          omega
        have := hhold m (by omega)
        rw [show cycleStart m k + m = k by omega] at this
        refine ⟨?_, ?_, ?_⟩
        · show upd (upd _ 0 _) m _ 0 = _
          rw [upd_ne _ _ (by omega), upd_same]; exact this.1
        · show upd (upd _ 0 _) m _ 0 = _
          rw [upd_ne _ _ (by omega), upd_same]; exact this.2.1
        · show upd (upd _ 0 _) m _ 0 = _
          rw [upd_ne _ _ (by omega), upd_same]; exact this.2.2
    · rw [(fcSeq_x (fun s => ⟨rfl, rfl⟩) (k + 1)).2]
      show S.2.b + _ • _ ∈ W
      refine W.add_mem hb (W.smul_mem _ ?_)
      rw [H.op]
      exact H.mem _ o2
    · intro j hj
      by_cases h : j = k
      · rw [h]; exact o2
      · exact hW j (by omega)
    · intro i hi
      by_cases h : i = k
      · subst h
        refine ⟨q, Submodule.span_mono ?_ hq, o3⟩
        rintro _ ⟨s, ⟨hs, _⟩, rfl⟩
        exact ⟨cycleStart m i + s, ⟨by omega, by omega⟩, (hold s hs).symm⟩
      · exact hdir i (by omega)
    · intro i hi j h1 h2
      by_cases h : i = k
      · subst h
        have := o4 (j - cycleStart m i) (by omega) trivial
        rwa [hold _ (by omega), show cycleStart m i + (j - cycleStart m i) = j by omega] at this
      · exact hconj i (by omega) j h1 h2

theorem restarted_flex (H : SpdProblem B W A E) (hm : 1 ≤ m) (c : X) (hb0 : st.b = c - A st.x) (hbW : st.b ∈ W) :
    FlexSeq B W A E.prec (cycleStart m) c (fun k => (rseq k).2.x) (fun k => (rseq k).2.b) rdir :=
  flexSeq_of (orth := fcOrthRestarted E) (cycle := fcCycleRestarted m) (m := m) H (fun _ => ⟨rfl, rfl⟩) (fun _ _ _ => ⟨rfl, rfl⟩) _ c hb0 (fun _ => cycleStart_le hm) (fun _ => (cycleStart_step hm).1)
    (fun k => (restarted_all H hm c hb0 hbW (k + 1)).2.2.1 k (by omega))
    (fun k => (restarted_all H hm c hb0 hbW (k + 1)).2.2.2.1 k (by omega))
    (fun k => (restarted_all H hm c hb0 hbW (k + 1)).2.2.2.2 k (by omega))

end Restarted

/-! ### CompleteFCGSolver -/

/-- Slots and directions of the complete method: the last `m + 1` directions are stored, direction `j` in slot `j mod (m + 1)`. -/
structure CInv (B : X → X → K) (W : Submodule K X) (A : Module.End K X) (p : Nat → X) (m k : Nat) (q : Nat × FcSt K X Rl) : Prop where
  ib : q.1 = k % (m + 1)
  lim : q.2.lim = min k (m + 1)
  holds : ∀ j < k, k ≤ j + (m + 1) → Holds B A p q.2 (j % (m + 1)) j

/-- Two numbers less than `m + 1` apart have different slots. -/
theorem slot_ne {m i j : Nat} (h1 : i < j) (h2 : j < i + (m + 1)) : i % (m + 1) ≠ j % (m + 1) := by
  intro h
  have := (Nat.modEq_iff_dvd' (n := m + 1) h1.le).1 h
  have := Nat.le_of_dvd (by omega) this
  omega

/-- The direction in a slot. -/
theorem slot_dir {m k s : Nat} (hs : s < min k (m + 1)) (hne : s ≠ k % (m + 1)) : ∃ j, j < k ∧ k ≤ j + m ∧ j % (m + 1) = s := by
  have hs1 : s < k := by omega
  have hs2 : s < m + 1 := by omega
  refine ⟨k - 1 - (k - 1 - s) % (m + 1), ?_, ?_, ?_⟩
  · omega
  · have := Nat.mod_lt (k - 1 - s) (show 0 < m + 1 by omega)
    have hle : (k - 1 - s) % (m + 1) ≤ k - 1 - s := Nat.mod_le _ _
    by_contra h
    have e : (k - 1 - s) % (m + 1) = m := by omega
    apply hne
    have hd := Nat.div_add_mod (k - 1 - s) (m + 1)
    rw [e] at hd
    have : k = s + (m + 1) * ((k - 1 - s) / (m + 1) + 1) := by rw [Nat.mul_add]; omega
    rw [this, Nat.add_mul_mod_self_left, Nat.mod_eq_of_lt hs2]
  · have hd := Nat.div_add_mod (k - 1 - s) (m + 1)
    have : k - 1 - (k - 1 - s) % (m + 1) = s + (m + 1) * ((k - 1 - s) / (m + 1)) := by omega
    rw [this, Nat.add_mul_mod_self_left, Nat.mod_eq_of_lt hs2]

section Complete
variable {m : Nat} {st : FcSt K X Rl}

local notation "cseq" => fcSeq E (fcOrthComplete E) (fcCycleComplete m) m st
local notation "craw" => fcRaw E (fcOrthComplete E) (fcCycleComplete m) m st
local notation "cdir" => fcDir E (fcOrthComplete E) (fcCycleComplete m) m st

theorem complete_all (H : SpdProblem B W A E) (hl : st.lim = 0) (c : X) (hb0 : st.b = c - A st.x) (hbW : st.b ∈ W) (k : Nat) :
    CInv B W A cdir m k (cseq k) ∧ (cseq k).2.b ∈ W ∧ (∀ j < k, cdir j ∈ W) ∧
    (∀ i < k, ∃ q ∈ Submodule.span K (cdir '' {j | lastStored m i ≤ j ∧ j < i}), cdir i = E.prec i (cseq i).2.b + q) ∧
    (∀ i < k, ∀ j, lastStored m i ≤ j → j < i → B (A (cdir j)) (cdir i) = 0) := by
  have hB := H.prod
  induction k with
  | zero =>
    have h0 : cseq 0 = (0, st) := by
      simp only [fcSeq, fcNorm, fcRaw, Nat.zero_le, if_true]
    refine ⟨⟨?_, ?_, fun j h => absurd h (by omega)⟩, by rw [h0]; exact hbW, fun j h => absurd h (by omega), fun j h => absurd h (by omega),
      fun j h => absurd h (by omega)⟩
    · rw [h0]; simp
    · rw [h0]; simp [hl]
  | succ k ih =>
    obtain ⟨R, hb, hW, hdir, hconj⟩ := ih
    set S := cseq k with hS
    have hib := R.ib
    have hlim := R.lim
    have hibm : S.1 < m + 1 := by rw [hib]; exact Nat.mod_lt _ (by omega)
    have hd' : ((craw (k + 1)).2.d) = forRange S.2.lim (fun k' d => if S.1 ≠ k' then
        upd d S.1 (d S.1 + (-(E.dot (S.2.ad k') (E.prec k S.2.b) / S.2.dad k')) • d k') else d) (upd S.2.d S.1 (E.prec k S.2.b)) := by
      rw [fcRaw_succ]
      rfl
    have slot : ∀ s, s < S.2.lim → S.1 ≠ s → ∃ j, j < k ∧ k ≤ j + m ∧ j % (m + 1) = s ∧ Holds B A cdir S.2 s j ∧
        upd S.2.d S.1 (E.prec k S.2.b) s = cdir j := by
      intro s h1 h2
      obtain ⟨j, j1, j2, j3⟩ := slot_dir (m := m) (k := k) (s := s) (by omega) (fun h => h2 (by rw [hib, h]))
      have hh := R.holds j j1 (by omega)
      rw [j3] at hh
      exact ⟨j, j1, j2, j3, hh, by rw [upd_ne _ _ (Ne.symm h2)]; exact hh.1⟩
    have pair : ∀ i j, k ≤ i + m → k ≤ j + m → i < k → j < k → i ≠ j → B (A (cdir i)) (cdir j) = 0 := by
      intro i j hi hj hik hjk hij
      rcases Nat.lt_or_gt_of_ne hij with h | h
      · exact hconj j hjk i (by unfold lastStored; omega) h
      · rw [H.symm, hB.symm]
        exact hconj i hik j (by unfold lastStored; omega) h
    obtain ⟨o1, o2, ⟨q, hq, o3⟩, o4⟩ := orth_loop H S.2 S.2.lim S.1 (fun s => S.1 ≠ s) (E.prec k S.2.b) (H.prec _ _ hb)
      (upd S.2.d S.1 (E.prec k S.2.b)) (upd_same _ _ _) (fun s hs h => Ne.symm h)
      (fun s hs h => by obtain ⟨j, j1, _, _, _, e⟩ := slot s hs h; rw [e]; exact hW _ j1)
      (fun s hs h => by obtain ⟨j, j1, _, _, hh, e⟩ := slot s hs h; rw [e]; exact hh.2.1)
      (fun s hs h => by obtain ⟨j, j1, _, _, hh, e⟩ := slot s hs h; rw [e]; exact hh.2.2)
      (fun s t hs ht h1 h2 hst => by
        obtain ⟨j, j1, j2, j3, _, e⟩ := slot s hs h1
        obtain ⟨i, i1, i2, i3, _, e'⟩ := slot t ht h2
        rw [e, e']
        exact pair _ _ j2 i2 j1 i1 (fun h => hst (by rw [← j3, ← i3, h])))
      _ hd'
    have epk : (craw (k + 1)).2.d S.1 = cdir k := rfl
    rw [epk] at o2 o3 o4
    obtain ⟨s1, s2⟩ := fcStep_slots (orth := fcOrthComplete E) H (k + 1) S.1 S.2 (fun _ _ => ⟨rfl, rfl⟩) cdir k rfl
    have hhold : ∀ j < k + 1, k + 1 ≤ j + (m + 1) → Holds B A cdir (craw (k + 1)).2 (j % (m + 1)) j := by
      intro j hj1 hj2
      by_cases h : j = k
      · subst h
        rw [← hib]
        exact s1
      · have hne : j % (m + 1) ≠ S.1 := by
          rw [hib]; exact slot_ne (by omega) (by omega)
        refine s2 _ _ hne ?_ (R.holds j (by omega) (by omega))
        show (craw (k + 1)).2.d _ = _
        rw [o1 _ hne, upd_ne _ _ hne]
    have hraw1 : (craw (k + 1)).1 = S.1 + 1 := rfl
    have hrawl : (craw (k + 1)).2.lim = min (k + 1) (m + 1) := by
      show (if S.2.lim ≤ S.1 then S.2.lim + 1 else S.2.lim) = _
      rw [hlim, hib]
      by_cases h : k < m + 1
      · rw [Nat.mod_eq_of_lt h, if_pos (by omega)]; omega
      · have := Nat.mod_lt k (show 0 < m + 1 by omega)
        rw [if_neg (by omega)]; omega
    have hwrap : S.1 = m → (k + 1) % (m + 1) = 0 := by
      intro h
      rw [h] at hib
      rw [Nat.add_mod, ← hib]
      by_cases h0 : m = 0
      · subst h0; omega
      · rw [Nat.mod_eq_of_lt (show 1 < m + 1 by omega), Nat.mod_self]
    have hnext : S.1 < m → (k + 1) % (m + 1) = S.1 + 1 := by
      intro h
      rw [Nat.add_mod, ← hib, Nat.mod_eq_of_lt (show 1 < m + 1 by omega), Nat.mod_eq_of_lt (by omega)]
    have hkm : S.1 = m → m ≤ k := fun h => by rw [← h, hib]; exact Nat.mod_le _ _
    refine ⟨⟨?_, ?_, ?_⟩, ?_, ?_, ?_, ?_⟩
    · show (fcNorm m (fcCycleComplete m) (craw (k + 1))).1 = _
      unfold fcNorm
      rw [hraw1]
      split
      · rw [hraw1, hnext (by omega)]
      · rw [hwrap (by omega)]; rfl
    · show (fcNorm m (fcCycleComplete m) (craw (k + 1))).2.lim = _
      unfold fcNorm
      rw [hraw1]
      split
      · exact hrawl
      · have := hkm (by omega)
        show m + 1 = _
        omega
    · show ∀ j < k + 1, k + 1 ≤ j + (m + 1) → Holds B A cdir (fcNorm m (fcCycleComplete m) (craw (k + 1))).2 (j % (m + 1)) j
      unfold fcNorm
      split
      · exact hhold
      · intro j h1 h2
        exact hhold j h1 h2
    · rw [(fcSeq_x (fun s => ⟨rfl, rfl⟩) (k + 1)).2]
      show S.2.b + _ • _ ∈ W
      refine W.add_mem hb (W.smul_mem _ ?_)
      rw [H.op]
      exact H.mem _ o2
    · intro j hj
      by_cases h : j = k
      · rw [h]; exact o2
      · exact hW j (by omega)
    · intro i hi
      by_cases h : i = k
      · subst h
        refine ⟨q, Submodule.span_mono ?_ hq, o3⟩
        rintro _ ⟨s, ⟨hs, hne⟩, rfl⟩
        obtain ⟨j, j1, j2, _, _, e⟩ := slot s hs hne
        exact ⟨j, ⟨by unfold lastStored; omega, j1⟩, e.symm⟩
      · exact hdir i (by omega)
    · intro i hi j h1 h2
      by_cases h : i = k
      · subst h
        unfold lastStored at h1
        have hne : S.1 ≠ j % (m + 1) := by
          rw [hib]; exact Ne.symm (slot_ne h2 (by omega))
        have hjl : j % (m + 1) < S.2.lim := by
          rw [hlim]
          have := Nat.mod_lt j (show 0 < m + 1 by omega)
          have := Nat.mod_le j (m + 1)
          omega
        have := o4 (j % (m + 1)) hjl hne
        have e : upd S.2.d S.1 (E.prec i S.2.b) (j % (m + 1)) = cdir j := by
          rw [upd_ne _ _ (Ne.symm hne)]
          exact (R.holds j h2 (by omega)).1
        rwa [e] at this
      · exact hconj i (by omega) j h1 h2

theorem complete_flex (H : SpdProblem B W A E) (hl : st.lim = 0) (c : X) (hb0 : st.b = c - A st.x) (hbW : st.b ∈ W) :
    FlexSeq B W A E.prec (lastStored m) c (fun k => (cseq k).2.x) (fun k => (cseq k).2.b) cdir :=
  flexSeq_of (orth := fcOrthComplete E) (cycle := fcCycleComplete m) (m := m) H (fun _ => ⟨rfl, rfl⟩) (fun _ _ _ => ⟨rfl, rfl⟩) _ c hb0
    (fun k => by unfold lastStored; omega) (fun k => by unfold lastStored; omega)
    (fun k => (complete_all H hl c hb0 hbW (k + 1)).2.2.1 k (by omega))
    (fun k => (complete_all H hl c hb0 hbW (k + 1)).2.2.2.1 k (by omega))
    (fun k => (complete_all H hl c hb0 hbW (k + 1)).2.2.2.2 k (by omega))

end Complete

end Solver
end Istl
