import Verif.Spec.PowerIt
import Verif.Spec.SpMat
import Verif.Lemmas.Row
import Verif.Lemmas.SpMat

/-!
# The iteration matrix and the common loop of the eigenvalue algorithms
-/

namespace Istl

namespace Pow

section Shift
variable {K : Type} [AddGroup K]

/-- `C` is `m` with `d i` subtracted from the `i`-th diagonal entry (flat index). -/
def ShiftedBy (m : SpMat (PBlock K)) (b : Nat) (d : Nat → K) (C : SpMat (PBlock K)) : Prop :=
  C.n = m.n ∧ C.m = m.m ∧ ∀ i < m.n,
    (C.row i).map Prod.fst = (m.row i).map Prod.fst ∧
    ∀ j e, (j, e) ∈ m.row i → ∃ e', (j, e') ∈ C.row i ∧
      ∀ k < b, ∀ l < b, e' k l = if i = j ∧ k = l then e k l - d (i * b + k) else e k l

theorem shifted_const {m C : SpMat (PBlock K)} {b : Nat} {mu : K} :
    IsShifted m b mu C ↔ ShiftedBy m b (fun _ => mu) C := Iff.rfl

theorem isShifted_self (m : SpMat (PBlock K)) (b : Nat) : IsShifted m b 0 m :=
  ⟨rfl, rfl, fun i _ => ⟨rfl, fun j e h => ⟨e, h, fun k _ l _ => by simp⟩⟩⟩

theorem shiftEntry_spec {m C : SpMat (PBlock K)} {b : Nat} (hm : m.WF) {d : Nat → K} (hC : ShiftedBy m b d C) (mu : K)
    {i : Nat} (hi : i < m.n * b) (hd : (m.row (i / b)).Has (i / b)) :
    ∃ C', shiftEntry m b mu i C = .ok C' ∧ ShiftedBy m b (upd d i mu) C' := by
  obtain ⟨hn, hM, hrow⟩ := hC
  have hb : 0 < b := by
    rcases Nat.eq_zero_or_pos b with h | h
    · subst h; simp at hi
    · exact h
  have hr : i / b < m.n := by
    rw [Nat.div_lt_iff_lt_mul hb]; exact hi
  obtain ⟨mb, hmb⟩ := hd
  obtain ⟨hkeys, hent⟩ := hrow _ hr
  obtain ⟨cb, hcb, hcbv⟩ := hent _ _ hmb
  have hasc : (C.row (i / b)).Asc := by unfold Row.Asc; rw [hkeys]; exact (hm _ hr).1
  refine ⟨{ C with row := upd C.row (i / b) ((C.row (i / b)).map (fun e => if e.1 = i / b then
    (e.1, fun k l => if k = i % b ∧ l = i % b then mb (i % b) (i % b) - mu else e.2 k l) else e)) }, ?_, ?_⟩
  · unfold shiftEntry
    rw [Row.get_of_mem _ (hm _ hr).1 hmb, Res.ok_bind, Row.modify_of_mem _ hasc hcb, Res.ok_bind]
  · refine ⟨hn, hM, ?_⟩
    intro i' hi'
    have hmod : i / b * b + i % b = i := by rw [Nat.mul_comm]; exact Nat.div_add_mod i b
    by_cases hii : i' = i / b
    · subst hii
      have hu : ∀ r : Row (PBlock K), upd C.row (i / b) r (i / b) = r := fun r => by simp [upd]
      dsimp only
      rw [hu]
      refine ⟨?_, ?_⟩
      · rw [← hkeys, List.map_map]
        apply List.map_congr_left
        intro e _
        dsimp only [Function.comp]
        split <;> rfl
      · intro j e he
        obtain ⟨e', he', hv⟩ := hent _ _ he
        by_cases hj : j = i / b
        · subst hj
          refine ⟨_, List.mem_map.mpr ⟨_, he', by rw [if_pos rfl]⟩, ?_⟩
          intro k hk l hl
          have heq : e = mb := (hm _ hr).1.unique he hmb
          subst heq
          dsimp only
          by_cases hkl : k = i % b ∧ l = i % b
          · rw [if_pos hkl, if_pos ⟨rfl, hkl.1.trans hkl.2.symm⟩, hkl.1, hkl.2, hmod]
            simp [upd]
          · rw [if_neg hkl, hv k hk l hl]
            by_cases hkl' : k = l
            · subst hkl'
              have hne : k ≠ i % b := fun h => hkl ⟨h, h⟩
              have hne2 : i / b * b + k ≠ i := by omega
              simp [upd, hne2]
            · simp [hkl']
        · refine ⟨e', List.mem_map.mpr ⟨_, he', by rw [if_neg hj]⟩, ?_⟩
          intro k hk l hl
          rw [hv k hk l hl, if_neg (fun h => hj h.1.symm), if_neg (fun h => hj h.1.symm)]
    · have hu : ∀ r : Row (PBlock K), upd C.row (i / b) r i' = C.row i' := fun r => upd_ne _ _ hii
      dsimp only
      rw [hu]
      obtain ⟨h1, h2⟩ := hrow _ hi'
      refine ⟨h1, ?_⟩
      intro j e he
      obtain ⟨e', he', hv⟩ := h2 _ _ he
      refine ⟨e', he', ?_⟩
      intro k hk l hl
      rw [hv k hk l hl]
      have hne : i' * b + k ≠ i := by
        intro h
        apply hii
        rw [← h, Nat.add_comm, Nat.add_mul_div_right _ _ hb, Nat.div_eq_of_lt hk, Nat.zero_add]
      simp [upd, hne]

theorem shiftLoop_spec {m : SpMat (PBlock K)} {b : Nat} (hm : m.WF) (mu : K)
    (hd : ∀ i < m.n, (m.row i).Has i) (is : List Nat) (his : ∀ i ∈ is, i < m.n * b) :
    ∀ {C : SpMat (PBlock K)} {d : Nat → K}, ShiftedBy m b d C →
      ∃ C', shiftLoop m b mu is C = (C', .ok ()) ∧ ShiftedBy m b (fun j => if j ∈ is then mu else d j) C' := by
  induction is with
  | nil => intro C d hC; exact ⟨C, rfl, by simpa using hC⟩
  | cons i is ih =>
    intro C d hC
    have hi := his i (by simp)
    have hb : 0 < b := by
      rcases Nat.eq_zero_or_pos b with h | h
      · subst h; simp at hi
      · exact h
    obtain ⟨C1, h1, hC1⟩ := shiftEntry_spec hm hC mu hi (hd _ (by rw [Nat.div_lt_iff_lt_mul hb]; exact hi))
    obtain ⟨C2, h2, hC2⟩ := ih (fun j hj => his j (by simp [hj])) hC1
    refine ⟨C2, by rw [shiftLoop, h1]; exact h2, ?_⟩
    convert hC2 using 1
    funext j
    by_cases hj : j ∈ is
    · simp [hj]
    · by_cases hji : j = i
      · simp [hj, hji, upd]
      · simp [hj, hji, upd]

/-- `updateShiftMu` keeps operator and matrix in sync when every diagonal block is stored. -/
theorem updateShiftMu_spec {X : Type} {env : PEnv K X} (heq : ∀ a b, env.eq a b = true ↔ a = b)
    {m : SpMat (PBlock K)} {b : Nat} (hm : m.WF) (hsq : m.m = m.n) (hd : ∀ i < m.n, (m.row i).Has i) (mu : K)
    {o : PObj K} (ho : InSync m b o) :
    ∃ o', updateShiftMu env m b mu o = (o', .ok ()) ∧ InSync m b o' ∧ o'.mu = mu ∧ o'.nIt = o.nIt ∧
      (o'.itMat = none ↔ o.itMat = none) := by
  unfold updateShiftMu
  by_cases h : mu = o.mu
  · rw [if_pos ((heq _ _).mpr h)]
    exact ⟨o, rfl, ho, h.symm, rfl, Iff.rfl⟩
  · rw [if_neg (fun h' => h ((heq _ _).mp h'))]
    rcases hC : o.itMat with _ | C
    · exact ⟨⟨mu, none, o.nIt⟩, rfl, fun C' h' => by simp at h', rfl, rfl, by simp⟩
    · have hs := ho C hC
      obtain ⟨C', h1, h2⟩ := shiftLoop_spec (b := b) hm mu hd (List.range (C.m * b))
        (fun i hi => by rw [← hsq, ← hs.2.1]; exact List.mem_range.mp hi) (shifted_const.mp hs)
      refine ⟨⟨mu, some C', o.nIt⟩, ?_, ?_, rfl, rfl, ?_⟩
      · dsimp only
        rw [h1]
      · intro C'' h''
        cases h''
        rw [shifted_const]
        obtain ⟨a1, a2, a3⟩ := h2
        refine ⟨a1, a2, fun i hi => ⟨(a3 i hi).1, fun j e he => ?_⟩⟩
        obtain ⟨e', b1, b2⟩ := (a3 i hi).2 j e he
        refine ⟨e', b1, fun k hk l hl => ?_⟩
        rw [b2 k hk l hl]
        have : i * b + k < C.m * b := by
          rw [hs.2.1, hsq]
          calc i * b + k < i * b + b := by omega
            _ = (i + 1) * b := by ring
            _ ≤ m.n * b := Nat.mul_le_mul_right _ hi
        simp [this]
      · simp

end Shift

section Loop
variable {K X : Type}

/-- Partial correctness: an invariant of the body holds at the end of the loop. -/
theorem powLoop_inv {env : PEnv K X} {eps : K} {step : PState K X → PState K X × Res Unit} {P : PState K X → Prop}
    (hs : ∀ s s', P s → step s.bump = (s', .ok ()) → P s' ∧ s'.obj.nIt = s.obj.nIt + 1) :
    ∀ (fuel : Nat) {s s' : PState K X}, P s → powLoop env eps step fuel s = (s', .ok ()) →
      P s' ∧ env.gt s'.r eps = false ∧ s.obj.nIt ≤ s'.obj.nIt ∧ s'.obj.nIt ≤ s.obj.nIt + fuel ∧
      (env.gt s.r eps = true → s.obj.nIt < s'.obj.nIt) := by
  intro fuel
  induction fuel with
  | zero =>
    intro s s' hP h
    rw [powLoop] at h
    split at h
    · cases h
    · rename_i hg
      cases h
      exact ⟨hP, by simpa using hg, le_rfl, by omega, fun h => absurd h hg⟩
  | succ fuel ih =>
    intro s s' hP h
    rw [powLoop] at h
    split at h
    · rename_i hg
      split at h
      · rename_i s1 h1
        obtain ⟨hP1, hn⟩ := hs _ _ hP h1
        obtain ⟨a, b, c, d, _⟩ := ih hP1 h
        exact ⟨a, b, by omega, by omega, fun _ => by omega⟩
      · cases h
      · cases h
    · rename_i hg
      cases h
      exact ⟨hP, by simpa using hg, le_rfl, by omega, fun h => absurd h hg⟩

/-- Total correctness when the body never fails: the loop stops at the first state of the run whose residual is not above
`epsilon`, or throws after `fuel` passes. -/
theorem powLoop_run {env : PEnv K X} {eps : K} {step : PState K X → PState K X × Res Unit} (st : Nat → PState K X)
    (hs : ∀ k, step (st k).bump = (st (k + 1), .ok ())) : ∀ (fuel k : Nat),
    (∃ n, n ≤ fuel ∧ powLoop env eps step fuel (st k) = (st (k + n), .ok ()) ∧ env.gt (st (k + n)).r eps = false ∧
      ∀ j < n, env.gt (st (k + j)).r eps = true) ∨
    (powLoop env eps step fuel (st k) = ((st (k + fuel)).bump, .throw .istlError) ∧
      ∀ j ≤ fuel, env.gt (st (k + j)).r eps = true) := by
  intro fuel
  induction fuel with
  | zero =>
    intro k
    by_cases hg : env.gt (st k).r eps = true
    · right
      refine ⟨by rw [powLoop, if_pos hg]; rfl, ?_⟩
      intro j hj
      obtain rfl : j = 0 := by omega
      exact hg
    · left
      refine ⟨0, le_rfl, by rw [powLoop, if_neg hg]; rfl, by simpa using hg, by simp⟩
  | succ fuel ih =>
    intro k
    by_cases hg : env.gt (st k).r eps = true
    · have he : powLoop env eps step (fuel + 1) (st k) = powLoop env eps step fuel (st (k + 1)) := by
        rw [powLoop, if_pos hg, hs]
      rw [he]
      rcases ih (k + 1) with ⟨n, h1, h2, h3, h4⟩ | ⟨h1, h2⟩
      · left
        refine ⟨n + 1, by omega, by rw [h2, show k + 1 + n = k + (n + 1) by omega],
          by rw [show k + (n + 1) = k + 1 + n by omega]; exact h3, ?_⟩
        intro j hj
        rcases j with _ | j
        · exact hg
        · rw [show k + (j + 1) = k + 1 + j by omega]; exact h4 j (by omega)
      · right
        refine ⟨by rw [h1, show k + 1 + fuel = k + (fuel + 1) by omega], ?_⟩
        intro j hj
        rcases j with _ | j
        · exact hg
        · rw [show k + (j + 1) = k + 1 + j by omega]; exact h2 j (by omega)
    · left
      refine ⟨0, by omega, by rw [powLoop, if_neg hg]; rfl, by simpa using hg, by simp⟩

/-- An exception thrown by the loop itself leaves the counter at `fuel + 1` more. -/
theorem powLoop_count {env : PEnv K X} {eps : K} {step : PState K X → PState K X × Res Unit}
    (hs : ∀ (s s' : PState K X) r, step s.bump = (s', r) → s'.obj.nIt = s.obj.nIt + 1) :
    ∀ (fuel : Nat) {s s' : PState K X} {r : Res Unit}, powLoop env eps step fuel s = (s', r) →
      s'.obj.nIt ≤ s.obj.nIt + fuel + 1 := by
  intro fuel
  induction fuel with
  | zero =>
    intro s s' r h
    rw [powLoop] at h
    split at h <;> cases h
    · simp [PState.bump]
    · omega
  | succ fuel ih =>
    intro s s' r h
    rw [powLoop] at h
    split at h
    · split at h
      · rename_i s1 h1
        have := hs _ _ _ h1
        have := ih h
        omega
      · rename_i h1; cases h; have := hs _ _ _ h1; omega
      · rename_i h1; cases h; have := hs _ _ _ h1; omega
    · cases h; omega

end Loop

end Pow

end Istl
