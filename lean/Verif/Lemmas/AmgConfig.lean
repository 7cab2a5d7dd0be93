import Verif.Spec.AmgConfig
import Mathlib.Tactic.Ring
import Mathlib.Tactic.Linarith

/-!
# Reading a configuration
-/

namespace Istl
namespace Amg

/-- `get` succeeds with the value. -/
theorem get_ok {α : Type} {t : PTree} {p : String → Option α} {k : String} {x : α} (h : t.get p k = .ok x) :
    ∃ s, t k = some s ∧ p s = some x := by
  unfold PTree.get at h
  cases hk : t k with
  | none => rw [hk] at h; exact absurd h (by simp)
  | some s =>
    rw [hk] at h
    cases hp : p s with
    | none => simp only [hp] at h; exact absurd h (by simp)
    | some y => simp only [hp] at h; injection h with h; exact ⟨s, rfl, by rw [hp, h]⟩

theorem get_of {α : Type} {t : PTree} {p : String → Option α} {k s : String} {x : α} (h : t k = some s) (hp : p s = some x) :
    t.get p k = .ok x := by
  simp [PTree.get, h, hp]

theorem get_cases {α : Type} (t : PTree) (p : String → Option α) (k : String) :
    (∃ s x, t k = some s ∧ p s = some x ∧ t.get p k = .ok x) ∨
    (t.get p k = .throw .rangeError ∧ ∀ s, t k = some s → p s = none) := by
  unfold PTree.get
  cases hk : t k with
  | none => right; simp
  | some s =>
    cases hp : p s with
    | none => right; simp only [hp, true_and]; intro s' h; injection h with h; rw [← h, hp]
    | some x => left; exact ⟨s, x, rfl, hp, by simp [hp]⟩

/-- `get` with default. -/
theorem getOr_ok {α : Type} {t : PTree} {p : String → Option α} {k : String} {d x : α} (h : t.getOr p k d = .ok x) : Reads p t k d x := by
  unfold PTree.getOr at h
  cases hk : t k with
  | none => rw [hk] at h; injection h with h; exact Or.inl ⟨hk, h.symm⟩
  | some s =>
    rw [hk] at h
    obtain ⟨s', h1, h2⟩ := get_ok h
    exact Or.inr ⟨s', h1, h2⟩

theorem getOr_cases {α : Type} (t : PTree) (p : String → Option α) (k : String) (d : α) :
    (∃ x, t.getOr p k d = .ok x ∧ Reads p t k d x) ∨ (t.getOr p k d = .throw .rangeError ∧ ¬ Readable p t k) := by
  cases hk : t k with
  | none => left; exact ⟨d, by simp [PTree.getOr, hk], Or.inl ⟨hk, rfl⟩⟩
  | some s =>
    have e : t.getOr p k d = t.get p k := by simp [PTree.getOr, hk]
    rw [e]
    rcases get_cases t p k with ⟨s', x, h1, h2, h3⟩ | ⟨h1, h2⟩
    · exact Or.inl ⟨x, h3, Or.inr ⟨s', h1, h2⟩⟩
    · refine Or.inr ⟨h1, fun hr => ?_⟩
      obtain ⟨x, hx⟩ := hr s hk
      rw [h2 s hk] at hx
      exact absurd hx (by simp)

/-- A conditional setter. -/
theorem onKey_cases {α C : Type} (t : PTree) (p : String → Option α) (k : String) (set : α → C → C) (c : C) :
    (t k = none ∧ onKey t p k set c = .ok c) ∨ (∃ s x, t k = some s ∧ p s = some x ∧ onKey t p k set c = .ok (set x c)) ∨
    (onKey t p k set c = .throw .rangeError ∧ ¬ Readable p t k) := by
  unfold onKey
  cases hk : t k with
  | none => left; exact ⟨rfl, rfl⟩
  | some s =>
    right
    rcases get_cases t p k with ⟨s', x, h1, h2, h3⟩ | ⟨h1, h2⟩
    · left; rw [hk] at h1; injection h1 with h1
      exact ⟨s', x, by rw [h1], h2, by simp [h3]⟩
    · right
      refine ⟨by simp [h1], fun hr => ?_⟩
      obtain ⟨x, hx⟩ := hr s hk
      rw [h2 s hk] at hx
      exact absurd hx (by simp)

/-- The loop of the default sizes, without overflow. -/
theorem isoLoop64_eq {d : Nat} (hd : 1 ≤ d) : ∀ (dim c e : Nat), c * d ^ dim < sizeMod → e + dim * (d - 1) < sizeMod →
    isoLoop64 d dim c e = (c * d ^ dim, e + dim * (d - 1)) := by
  intro dim
  induction dim with
  | zero => intro c e _ _; rw [isoLoop64, pow_zero, Nat.mul_one, Nat.zero_mul, Nat.add_zero]
  | succ n ih =>
    intro c e h1 h2
    have e1 : c * d ^ (n + 1) = c * d * d ^ n := by ring
    have e2 : e + (n + 1) * (d - 1) = e + (d - 1) + n * (d - 1) := by ring
    have k1 : c * d ≤ c * d * d ^ n := Nat.le_mul_of_pos_right _ (Nat.pow_pos hd)
    have k2 : e + (d - 1) ≤ e + (d - 1) + n * (d - 1) := Nat.le_add_right _ _
    rw [e1] at h1 ⊢
    rw [e2] at h2 ⊢
    have m : mulSize c d = c * d := by unfold mulSize; exact Nat.mod_eq_of_lt (Nat.lt_of_le_of_lt k1 h1)
    have a : addSize e (predSize d) = e + (d - 1) := by
      unfold addSize predSize
      rw [if_neg (by omega)]
      exact Nat.mod_eq_of_lt (Nat.lt_of_le_of_lt k2 h2)
    rw [isoLoop64, m, a]
    exact ih _ _ h1 h2

theorem Reads.readable {α : Type} {p : String → Option α} {t : PTree} {k : String} {d x : α} (h : Reads p t k d x) : Readable p t k := by
  rcases h with ⟨h, _⟩ | ⟨s, h, hp⟩
  · intro s e; rw [h] at e; exact absurd e (by simp)
  · intro s' e; rw [h] at e; injection e with e; exact ⟨x, by rw [← e]; exact hp⟩

/-- A conditional setter of a field whose value was the default. -/
theorem onKey_ok {α C : Type} {t : PTree} {p : String → Option α} {k : String} {set : α → C → C} {c c' : C} (d : α) (lens : set d c = c)
    (h : onKey t p k set c = .ok c') : ∃ x, Reads p t k d x ∧ c' = set x c := by
  rcases onKey_cases t p k set c with ⟨h1, h2⟩ | ⟨s, x, h1, h2, h3⟩ | ⟨h1, _⟩
  · rw [h2] at h; injection h with h
    exact ⟨d, Or.inl ⟨h1, rfl⟩, by rw [lens, h]⟩
  · rw [h3] at h; injection h with h
    exact ⟨x, Or.inr ⟨s, h1, h2⟩, h.symm⟩
  · rw [h1] at h; exact absurd h (by simp)

/-- The sizes as `setDefaultValuesIsotropic` leaves them. -/
theorem setIso64_fits {dim d : Nat} {c : AmgParams} (hd : 1 ≤ d) (h1 : d ^ dim * 3 / 2 < sizeMod) (h2 : (dim + 1) * (d - 1) < sizeMod) :
    setIso64 dim d c = .ok { c with maxDistance := (dim + 1) * (d - 1), minAggregateSize := d ^ dim, maxAggregateSize := d ^ dim * 3 / 2 } := by
  have e : d - 1 + dim * (d - 1) = (dim + 1) * (d - 1) := by ring
  have hl : isoLoop64 d dim 1 (predSize d) = (d ^ dim, (dim + 1) * (d - 1)) := by
    have hp : predSize d = d - 1 := by unfold predSize; rw [if_neg (by omega)]
    rw [hp, isoLoop64_eq hd dim 1 (d - 1) (by omega) (by omega), Nat.one_mul, e]
  unfold setIso64
  dsimp only
  rw [hl, if_pos h1]

theorem setIso64_ok {dim d : Nat} {c c' : AmgParams} (h : setIso64 dim d c = .ok c') :
    ∃ a b e, c' = { c with maxDistance := a, minAggregateSize := b, maxAggregateSize := e } := by
  unfold setIso64 at h
  dsimp only at h
  split at h
  · injection h with h
    exact ⟨_, _, _, h.symm⟩
  · exact absurd h (by simp)

theorem setAniso64_fits {dim d : Nat} {c : AmgParams} (hd : 1 ≤ d) (hm : 1 ≤ dim) (h1 : d ^ dim * 3 / 2 < sizeMod)
    (h2 : (dim + 1) * (d - 1) + dim < sizeMod) : setAniso64 dim d c = .ok { c with
      maxDistance := (dim + 1) * (d - 1) + (dim - 1), minAggregateSize := d ^ dim, maxAggregateSize := d ^ dim * 3 / 2 } := by
  unfold setAniso64
  rw [setIso64_fits hd h1 (by omega)]
  have e : addSize ((dim + 1) * (d - 1)) (predSize dim) = (dim + 1) * (d - 1) + (dim - 1) := by
    unfold addSize predSize
    rw [if_neg (by omega)]
    exact Nat.mod_eq_of_lt (by omega)
  simp only [Res.ok_bind, e]

theorem setAniso64_ok {dim d : Nat} {c c' : AmgParams} (h : setAniso64 dim d c = .ok c') :
    ∃ a b e, c' = { c with maxDistance := a, minAggregateSize := b, maxAggregateSize := e } := by
  unfold setAniso64 at h
  simp only [Res.bind_eq_ok] at h
  obtain ⟨c1, h1, h2⟩ := h
  obtain ⟨a, b, e, rfl⟩ := setIso64_ok h1
  injection h2 with h2
  exact ⟨_, _, _, h2.symm⟩

/-- The diameter the size mode works with. -/
def Diam (V : Conv) (t : PTree) (d : Nat) : Prop :=
  t "MaxAggregateDistance" = none ∧ d = 2 ∨ t "MaxAggregateDistance" ≠ none ∧ ∃ f, t "maxAggregateDistance" = some f ∧ V.size f = some d

theorem diamOf_ok {V : Conv} {t : PTree} {d : Nat} (h : diamOf V t = .ok d) : Diam V t d := by
  unfold diamOf at h
  cases hk : t "MaxAggregateDistance" with
  | none => rw [hk] at h; injection h with h; exact Or.inl ⟨hk, h.symm⟩
  | some s => rw [hk] at h; exact Or.inr ⟨by rw [hk]; simp, get_ok h⟩

theorem diamOf_cases (V : Conv) (t : PTree) : (∃ d, diamOf V t = .ok d ∧ Diam V t d) ∨
    (diamOf V t = .throw .rangeError ∧ (t "MaxAggregateDistance" ≠ none) ∧
      ∀ s, t "maxAggregateDistance" = some s → V.size s = none) := by
  unfold diamOf
  cases hk : t "MaxAggregateDistance" with
  | none => left; exact ⟨2, rfl, Or.inl ⟨hk, rfl⟩⟩
  | some s =>
    rcases get_cases t V.size "maxAggregateDistance" with ⟨s', x, h1, h2, h3⟩ | ⟨h1, h2⟩
    · exact Or.inl ⟨x, h3, Or.inr ⟨by rw [hk]; simp, s', h1, h2⟩⟩
    · exact Or.inr ⟨h1, by simp, h2⟩

theorem setSizeMode_none {V : Conv} {t : PTree} {c : AmgParams} (h : t "defaultAggregationSizeMode" = none) : setSizeMode V t c = .ok c := by
  unfold setSizeMode; rw [h]

theorem setSizeMode_some {V : Conv} {t : PTree} {c : AmgParams} {s : String} (h : t "defaultAggregationSizeMode" = some s) :
    setSizeMode V t c = (do
      let dim ← t.get V.size "defaultAggregationDimension"
      let d ← diamOf V t
      if V.lower s = "isotropic" then setIso64 dim d c
      else if V.lower s = "anisotropic" then setAniso64 dim d c
      else .throw .invalidFactoryConfiguration) := by
  unfold setSizeMode
  rw [h]

/-- The size mode changes the sizes only. -/
theorem setSizeMode_ok {V : Conv} {t : PTree} {c c' : AmgParams} (h : setSizeMode V t c = .ok c') :
    ∃ a b e, c' = { c with maxDistance := a, minAggregateSize := b, maxAggregateSize := e } ∧
      (t "defaultAggregationSizeMode" = none ∧ a = c.maxDistance ∧ b = c.minAggregateSize ∧ e = c.maxAggregateSize ∨
        (Fits V t → DefaultSizes V t a b e)) ∧
      ∀ s, t "defaultAggregationSizeMode" = some s → (V.lower s = "isotropic" ∨ V.lower s = "anisotropic") ∧
        (∃ e dim, t "defaultAggregationDimension" = some e ∧ V.size e = some dim) ∧
        (t "MaxAggregateDistance" ≠ none → t "maxAggregateDistance" ≠ none) := by
  cases hk : t "defaultAggregationSizeMode" with
  | none =>
    rw [setSizeMode_none hk] at h; injection h with h
    exact ⟨_, _, _, h.symm, Or.inl ⟨rfl, rfl, rfl, rfl⟩, by simp⟩
  | some s =>
    rw [setSizeMode_some hk] at h
    simp only [Res.bind_eq_ok] at h
    obtain ⟨dim, h1, d, h2, h3⟩ := h
    obtain ⟨f, hf, hd⟩ := get_ok h1
    have hD := diamOf_ok h2
    have hv : (V.lower s = "isotropic" ∨ V.lower s = "anisotropic") → ∀ s', some s = some s' →
        (V.lower s' = "isotropic" ∨ V.lower s' = "anisotropic") ∧
        (∃ e dim, t "defaultAggregationDimension" = some e ∧ V.size e = some dim) ∧
        (t "MaxAggregateDistance" ≠ none → t "maxAggregateDistance" ≠ none) := by
      intro hm s' e
      injection e with e
      subst e
      refine ⟨hm, ⟨f, dim, hf, hd⟩, fun hn => ?_⟩
      rcases hD with ⟨k, _⟩ | ⟨_, g, k, _⟩
      · exact absurd k hn
      · rw [k]; simp
    by_cases hi : V.lower s = "isotropic"
    · rw [if_pos hi] at h3
      by_cases F : Fits V t
      · obtain ⟨f1, f2, f3, f4⟩ := F s f dim d hk hf hd hD
        rw [setIso64_fits f1 f3 (by omega)] at h3
        injection h3 with h3
        exact ⟨_, _, _, h3.symm, Or.inr fun _ => DefaultSizes.isotropic hk hi hf hd f1 hD, hv (Or.inl hi)⟩
      · obtain ⟨a, b, e, rfl⟩ := setIso64_ok h3
        exact ⟨a, b, e, rfl, Or.inr fun F' => absurd F' F, hv (Or.inl hi)⟩
    · rw [if_neg hi] at h3
      by_cases ha : V.lower s = "anisotropic"
      · rw [if_pos ha] at h3
        by_cases F : Fits V t
        · obtain ⟨f1, f2, f3, f4⟩ := F s f dim d hk hf hd hD
          rw [setAniso64_fits f1 (f2 ha) f3 f4] at h3
          injection h3 with h3
          exact ⟨_, _, _, h3.symm, Or.inr fun _ => DefaultSizes.anisotropic hk ha hf hd f1 (f2 ha) hD, hv (Or.inr ha)⟩
        · obtain ⟨a, b, e, rfl⟩ := setAniso64_ok h3
          exact ⟨a, b, e, rfl, Or.inr fun F' => absurd F' F, hv (Or.inr ha)⟩
      · rw [if_neg ha] at h3
        exact absurd h3 (by simp)

/-- The accumulation mode changes the mode, or the coarsening target. -/
theorem setAccumulation_ok {V : Conv} {t : PTree} {c c' : AmgParams} (hc : c.accumulate = .successiveAccu)
    (h : setAccumulation V t c = .ok c') : ∃ a x, c' = { c with accumulate := a, coarsenTarget := x } ∧ AccuMode V t a ∧
      ((∃ s, t "accumulationMode" = some s ∧ V.lower s = "successive" ∧ x = 2) ∨
        ((∀ s, t "accumulationMode" = some s → V.lower s ≠ "successive") ∧ x = c.coarsenTarget)) := by
  unfold setAccumulation at h
  cases hk : t "accumulationMode" with
  | none =>
    rw [hk] at h; injection h with h
    refine ⟨.successiveAccu, c.coarsenTarget, ?_, Or.inl ⟨hk, rfl⟩, Or.inr ⟨by simp, rfl⟩⟩
    rw [← h, ← hc]
  | some s =>
    rw [hk] at h
    dsimp only at h
    by_cases h1 : V.lower s = "none"
    · rw [if_pos h1] at h; injection h with h
      refine ⟨_, _, h.symm, Or.inr ⟨s, hk, Or.inl ⟨h1, rfl⟩⟩, Or.inr ⟨?_, rfl⟩⟩
      intro s' e; injection e with e; rw [← e, h1]; decide
    · rw [if_neg h1] at h
      by_cases h2 : V.lower s = "atonce"
      · rw [if_pos h2] at h; injection h with h
        refine ⟨_, _, h.symm, Or.inr ⟨s, hk, Or.inr (Or.inl ⟨h2, rfl⟩)⟩, Or.inr ⟨?_, rfl⟩⟩
        intro s' e; injection e with e; rw [← e, h2]; decide
      · rw [if_neg h2] at h
        by_cases h3 : V.lower s = "successive"
        · rw [if_pos h3] at h; injection h with h
          refine ⟨.successiveAccu, 2, ?_, Or.inr ⟨s, hk, Or.inr (Or.inr ⟨h3, rfl⟩)⟩, Or.inl ⟨s, rfl, h3, rfl⟩⟩
          rw [← h]
          cases c
          dsimp only at hc
          subst hc
          rfl
        · rw [if_neg h3] at h
          exact absurd h (by simp)

/-- The choice of the norm. -/
theorem chooseNorm_ok {name : String} {i : Int} {n : Norm} (h : chooseNorm name i = .ok n) :
    name = "diagonal" ∧ (∃ j : Nat, j ≤ 4 ∧ i = (j : Int) ∧ n = .diagonal j) ∨ name = "rowsum" ∧ n = .rowSum ∨
      name = "frobenius" ∧ n = .frobenius ∨ name = "one" ∧ n = .one := by
  unfold chooseNorm at h
  by_cases h1 : name = "diagonal"
  · rw [if_pos h1] at h
    left; refine ⟨h1, ?_⟩
    split at h <;> first | (injection h with h; exact ⟨_, by decide, rfl, h.symm⟩) | exact absurd h (by simp)
  · rw [if_neg h1] at h
    by_cases h2 : name = "rowsum"
    · rw [if_pos h2] at h; injection h with h; exact Or.inr (Or.inl ⟨h2, h.symm⟩)
    · rw [if_neg h2] at h
      by_cases h3 : name = "frobenius"
      · rw [if_pos h3] at h; injection h with h; exact Or.inr (Or.inr (Or.inl ⟨h3, h.symm⟩))
      · rw [if_neg h3] at h
        by_cases h4 : name = "one"
        · rw [if_pos h4] at h; injection h with h; exact Or.inr (Or.inr (Or.inr ⟨h4, h.symm⟩))
        · rw [if_neg h4] at h; exact absurd h (by simp)

/-- What a successful constructor has decided. -/
theorem amgConfig_ok {V : Conv} {t : PTree} {c : AmgChoice} (h : amgConfig V t = .ok c) :
    Configured V t c ∧ (Fits V t → Sizes V t c.params) ∧ Valid V t := by
  simp only [amgConfig, amgParams, Res.bind_eq_ok] at h
  obtain ⟨it, hit, w, hw, name, hname, index, hindex, norm, hnorm, sym, hsym, ps, ⟨c1, h1, c2, h2, c3, h3, c4, h4, c5, h5, c6, h6, c7, h7, c8, h8,
    c9, h9, c10, h10, c11, h11, c12, h12, c13, h13, c14, h14, c15, h15, c16, h16, v, hv, hlast⟩, hc⟩ := h
  obtain ⟨x1, r1, rfl⟩ := onKey_ok (100 : Int) rfl h1
  obtain ⟨c2x, r2⟩ : ∃ q : ℚ, ((t "minCoarseningRate" = none ∧ q = 6 / 5) ∨
      ∃ s n, t "minCoarseningRate" = some s ∧ V.int s = some n ∧ q = (n : ℚ)) ∧
      c2 = { AmgParams.default with maxLevel := x1, minCoarsenRate := q } := by
    rcases onKey_cases t V.int "minCoarseningRate" (fun x c => { c with minCoarsenRate := (x : ℚ) })
      { AmgParams.default with maxLevel := x1 } with ⟨k1, k2⟩ | ⟨s, x, k1, k2, k3⟩ | ⟨k1, _⟩
    · rw [k2] at h2; injection h2 with h2
      exact ⟨6 / 5, Or.inl ⟨k1, rfl⟩, h2.symm⟩
    · rw [k3] at h2; injection h2 with h2
      exact ⟨(x : ℚ), Or.inr ⟨s, x, k1, k2, rfl⟩, h2.symm⟩
    · rw [k1] at h2; exact absurd h2 (by simp)
  obtain ⟨r2, rfl⟩ := r2
  obtain ⟨x3, r3, rfl⟩ := onKey_ok (1000 : Int) rfl h3
  obtain ⟨a4, x4, rfl, r4, r4'⟩ := setAccumulation_ok rfl h4
  obtain ⟨x5, r5, rfl⟩ := onKey_ok (8 / 5 : ℚ) rfl h5
  obtain ⟨a6, b6, e6, rfl, r6, r6'⟩ := setSizeMode_ok h6
  obtain ⟨x7, r7, rfl⟩ := onKey_ok a6 rfl h7
  obtain ⟨x8, r8, rfl⟩ := onKey_ok b6 rfl h8
  obtain ⟨x9, r9, rfl⟩ := onKey_ok e6 rfl h9
  obtain ⟨x10, r10, rfl⟩ := onKey_ok 15 rfl h10
  obtain ⟨x11, r11, rfl⟩ := onKey_ok (1 / 3 : ℚ) rfl h11
  obtain ⟨x12, r12, rfl⟩ := onKey_ok (1 / 100000 : ℚ) rfl h12
  obtain ⟨x13, r13, rfl⟩ := onKey_ok 1 rfl h13
  obtain ⟨x14, r14, rfl⟩ := onKey_ok false rfl h14
  obtain ⟨x15, r15, rfl⟩ := onKey_ok 2 rfl h15
  obtain ⟨x16, r16, rfl⟩ := onKey_ok 2 rfl h16
  injection hlast with hlast
  subst hlast
  injection hc with hc
  subst hc
  refine ⟨⟨getOr_ok hit, getOr_ok hw, ⟨name, index, getOr_ok hname, getOr_ok hindex, chooseNorm_ok hnorm⟩, getOr_ok hsym, r1, ?_, r2, r4, r5, r10,
    r11, r12, r13, r14, r15, r16, getOr_ok hv, rfl⟩, fun F => ⟨a6, b6, e6, ?_, r7, r8, r9⟩, ?_⟩
  · rcases r4' with k | ⟨k1, k2⟩
    · exact Or.inl k
    · refine Or.inr ⟨k1, ?_⟩
      dsimp only at k2 ⊢
      rw [k2]; exact r3
  · rcases r6 with ⟨k1, k2, k3, k4⟩ | k
    · have e2 : a6 = 2 := k2
      have e3 : b6 = 4 := k3
      have e4 : e6 = 6 := k4
      rw [e2, e3, e4]; exact DefaultSizes.plain k1
    · exact k F
  · refine ⟨?_, ?_, ?_, ?_, ⟨norm, name, index, getOr_ok hname, getOr_ok hindex, chooseNorm_ok hnorm⟩, ⟨a4, r4⟩, r6'⟩
    · have r2' : Readable V.int t "minCoarseningRate" := by
        rcases r2 with ⟨k, _⟩ | ⟨s, n, k1, k2, _⟩
        · intro s e; rw [k] at e; exact absurd e (by simp)
        · intro s' e; rw [k1] at e; injection e with e; exact ⟨n, by rw [← e]; exact k2⟩
      intro k hk
      simp only [List.mem_cons, List.not_mem_nil, or_false] at hk
      rcases hk with rfl | rfl | rfl | rfl | rfl | rfl
      exacts [(getOr_ok hit).readable, (getOr_ok hindex).readable, r1.readable, r2', r3.readable, (getOr_ok hv).readable]
    · intro k hk
      simp only [List.mem_cons, List.not_mem_nil, or_false] at hk
      rcases hk with rfl | rfl | rfl | rfl
      exacts [(getOr_ok hw).readable, r5.readable, r11.readable, r12.readable]
    · intro k hk
      simp only [List.mem_cons, List.not_mem_nil, or_false] at hk
      rcases hk with rfl | rfl | rfl | rfl | rfl | rfl | rfl
      exacts [r7.readable, r8.readable, r9.readable, r10.readable, r13.readable, r15.readable, r16.readable]
    · intro k hk
      simp only [List.mem_cons, List.not_mem_nil, or_false] at hk
      rcases hk with rfl | rfl
      exacts [(getOr_ok hsym).readable, r14.readable]

/-- A value, or one of the documented exceptions because of an invalid tree. -/
def Good {α : Type} (E : Prop) (r : Res α) : Prop :=
  (∃ a, r = .ok a) ∨
    (∃ e, (e = .rangeError ∨ e = .invalidState ∨ e = .notImplemented ∨ e = .invalidFactoryConfiguration) ∧ r = .throw e ∧ E)

theorem Good.bind {α β : Type} {E : Prop} {r : Res α} {f : α → Res β} (h : Good E r) (hf : ∀ a, r = .ok a → Good E (f a)) :
    Good E (r >>= f) := by
  rcases h with ⟨a, ha⟩ | ⟨e, he, hr, hE⟩
  · have := hf a ha
    rw [ha]; exact this
  · rw [hr]; exact Or.inr ⟨e, he, rfl, hE⟩

theorem good_onKey {α C : Type} {E : Prop} (t : PTree) (p : String → Option α) (k : String) (set : α → C → C) (c : C)
    (h : ¬ Readable p t k → E) : Good E (onKey t p k set c) := by
  rcases onKey_cases t p k set c with ⟨_, h2⟩ | ⟨s, x, _, _, h3⟩ | ⟨h1, h2⟩
  · exact Or.inl ⟨_, h2⟩
  · exact Or.inl ⟨_, h3⟩
  · exact Or.inr ⟨_, Or.inl rfl, h1, h h2⟩

theorem good_getOr {α : Type} {E : Prop} (t : PTree) (p : String → Option α) (k : String) (d : α)
    (h : ¬ Readable p t k → E) : Good E (t.getOr p k d) := by
  rcases getOr_cases t p k d with ⟨x, h1, _⟩ | ⟨h1, h2⟩
  · exact Or.inl ⟨_, h1⟩
  · exact Or.inr ⟨_, Or.inl rfl, h1, h h2⟩

theorem good_sizeMode {V : Conv} {t : PTree} (F : Fits V t) (c : AmgParams) : Good (¬ Valid V t) (setSizeMode V t c) := by
  cases hk : t "defaultAggregationSizeMode" with
  | none => exact Or.inl ⟨c, setSizeMode_none hk⟩
  | some s =>
    rw [setSizeMode_some hk]
    have g1 : Good (¬ Valid V t) (t.get V.size "defaultAggregationDimension") := by
      rcases get_cases t V.size "defaultAggregationDimension" with ⟨f, x, _, _, h3⟩ | ⟨h1, h2⟩
      · exact Or.inl ⟨_, h3⟩
      · refine Or.inr ⟨_, Or.inl rfl, h1, fun hV => ?_⟩
        obtain ⟨_, ⟨e, dim, k1, k2⟩, _⟩ := hV.sizeMode s hk
        rw [h2 e k1] at k2
        exact absurd k2 (by simp)
    refine g1.bind fun dim hdim => ?_
    have g2 : Good (¬ Valid V t) (diamOf V t) := by
      rcases diamOf_cases V t with ⟨d, h1, _⟩ | ⟨h1, h2, h3⟩
      · exact Or.inl ⟨_, h1⟩
      · refine Or.inr ⟨_, Or.inl rfl, h1, fun hV => ?_⟩
        have h4 := (hV.sizeMode s hk).2.2 h2
        cases hm : t "maxAggregateDistance" with
        | none => exact h4 hm
        | some f =>
          obtain ⟨x, hx⟩ := hV.sizes "maxAggregateDistance" (by simp) f hm
          rw [h3 f hm] at hx
          exact absurd hx (by simp)
    refine g2.bind fun d hd => ?_
    obtain ⟨f, hf, hdm⟩ := get_ok hdim
    obtain ⟨f1, f2, f3, f4⟩ := F s f dim d hk hf hdm (diamOf_ok hd)
    by_cases hi : V.lower s = "isotropic"
    · rw [if_pos hi, setIso64_fits f1 f3 (by omega)]
      exact Or.inl ⟨_, rfl⟩
    · rw [if_neg hi]
      by_cases ha : V.lower s = "anisotropic"
      · rw [if_pos ha, setAniso64_fits f1 (f2 ha) f3 f4]
        exact Or.inl ⟨_, rfl⟩
      · rw [if_neg ha]
        refine Or.inr ⟨_, Or.inr (Or.inr (Or.inr rfl)), rfl, fun hV => ?_⟩
        rcases (hV.sizeMode s hk).1 with h | h
        · exact hi h
        · exact ha h

theorem good_accumulation {V : Conv} {t : PTree} (c : AmgParams) : Good (¬ Valid V t) (setAccumulation V t c) := by
  unfold setAccumulation
  cases hk : t "accumulationMode" with
  | none => exact Or.inl ⟨c, rfl⟩
  | some s =>
    dsimp only
    by_cases h1 : V.lower s = "none"
    · rw [if_pos h1]; exact Or.inl ⟨_, rfl⟩
    · rw [if_neg h1]
      by_cases h2 : V.lower s = "atonce"
      · rw [if_pos h2]; exact Or.inl ⟨_, rfl⟩
      · rw [if_neg h2]
        by_cases h3 : V.lower s = "successive"
        · rw [if_pos h3]; exact Or.inl ⟨_, rfl⟩
        · rw [if_neg h3]
          refine Or.inr ⟨_, Or.inr (Or.inr (Or.inr rfl)), rfl, fun hV => ?_⟩
          obtain ⟨a, ⟨k, _⟩ | ⟨s', k, k'⟩⟩ := hV.accumulation
          · rw [hk] at k; exact absurd k (by simp)
          · rw [hk] at k; injection k with k; subst k
            rcases k' with ⟨k, _⟩ | ⟨k, _⟩ | ⟨k, _⟩
            exacts [h1 k, h2 k, h3 k]

theorem Reads.unique {α : Type} {p : String → Option α} {t : PTree} {k : String} {d x y : α} (h : Reads p t k d x) (h' : Reads p t k d y) :
    x = y := by
  rcases h with ⟨a, b⟩ | ⟨s, a, b⟩ <;> rcases h' with ⟨a', b'⟩ | ⟨s', a', b'⟩
  · rw [b, b']
  · rw [a] at a'; exact absurd a' (by simp)
  · rw [a] at a'; exact absurd a' (by simp)
  · rw [a] at a'; injection a' with e; subst e; rw [b] at b'; injection b'

theorem good_norm {V : Conv} {t : PTree} {name : String} {i : Int} (h1 : Reads some t "strengthMeasure" "diagonal" name)
    (h2 : Reads V.int t "diagonalRowIndex" 0 i) : Good (¬ Valid V t) (chooseNorm (V.lower name) i) := by
  by_cases hV : Valid V t
  · obtain ⟨n, name', i', k1, k2, k3⟩ := hV.norm
    have e1 := h1.unique k1
    have e2 := h2.unique k2
    subst e1; subst e2
    left
    unfold chooseNorm
    rcases k3 with ⟨k, j, j1, j2, _⟩ | ⟨k, _⟩ | ⟨k, _⟩ | ⟨k, _⟩
    · rw [if_pos k, j2]
      have : j = 0 ∨ j = 1 ∨ j = 2 ∨ j = 3 ∨ j = 4 := by omega
      rcases this with rfl | rfl | rfl | rfl | rfl <;> exact ⟨_, rfl⟩
    · rw [k]; exact ⟨.rowSum, rfl⟩
    · rw [k]; exact ⟨.frobenius, rfl⟩
    · rw [k]; exact ⟨.one, rfl⟩
  · have : (∃ n, chooseNorm (V.lower name) i = .ok n) ∨ chooseNorm (V.lower name) i = .throw .invalidState ∨
        chooseNorm (V.lower name) i = .throw .notImplemented := by
      unfold chooseNorm
      by_cases k1 : V.lower name = "diagonal"
      · rw [if_pos k1]
        split <;> first | exact Or.inl ⟨_, rfl⟩ | exact Or.inr (Or.inl rfl)
      · rw [if_neg k1]
        by_cases k2 : V.lower name = "rowsum"
        · rw [if_pos k2]; exact Or.inl ⟨_, rfl⟩
        · rw [if_neg k2]
          by_cases k3 : V.lower name = "frobenius"
          · rw [if_pos k3]; exact Or.inl ⟨_, rfl⟩
          · rw [if_neg k3]
            by_cases k4 : V.lower name = "one"
            · rw [if_pos k4]; exact Or.inl ⟨_, rfl⟩
            · rw [if_neg k4]; exact Or.inr (Or.inr rfl)
    rcases this with h | h | h
    · exact Or.inl h
    · exact Or.inr ⟨_, Or.inr (Or.inl rfl), h, hV⟩
    · exact Or.inr ⟨_, Or.inr (Or.inr (Or.inl rfl)), h, hV⟩

/-- The constructor decides, or throws because the tree is invalid. -/
theorem amgConfig_good {V : Conv} {t : PTree} (F : Fits V t) : Good (¬ Valid V t) (amgConfig V t) := by
  have I : ∀ k, k ∈ ["smootherIterations", "diagonalRowIndex", "maxLevel", "minCoarseningRate", "coarsenTarget", "verbosity"] →
      ¬ Readable V.int t k → ¬ Valid V t := fun k hk h hV => h (hV.ints k hk)
  have D : ∀ k, k ∈ ["smootherRelaxation", "prolongationDampingFactor", "alpha", "beta"] →
      ¬ Readable V.double t k → ¬ Valid V t := fun k hk h hV => h (hV.doubles k hk)
  have S : ∀ k, k ∈ ["maxAggregateDistance", "minAggregateSize", "maxAggregateSize", "maxAggregateConnectivity", "gamma", "preSteps",
      "postSteps"] → ¬ Readable V.size t k → ¬ Valid V t := fun k hk h hV => h (hV.sizes k hk)
  have B : ∀ k, k ∈ ["criterionSymmetric", "additive"] → ¬ Readable V.bool t k → ¬ Valid V t := fun k hk h hV => h (hV.bools k hk)
  unfold amgConfig
  refine (good_getOr _ _ _ _ (I _ (by simp))).bind fun it _ => ?_
  refine (good_getOr _ _ _ _ (D _ (by simp))).bind fun w _ => ?_
  refine (good_getOr _ _ _ _ (fun h => absurd (fun s _ => ⟨s, rfl⟩) h)).bind fun name hname => ?_
  refine (good_getOr _ _ _ _ (I _ (by simp))).bind fun index hindex => ?_
  refine (good_norm (getOr_ok hname) (getOr_ok hindex)).bind fun norm _ => ?_
  refine (good_getOr _ _ _ _ (B _ (by simp))).bind fun sym _ => ?_
  refine Good.bind ?_ fun c _ => Or.inl ⟨_, rfl⟩
  unfold amgParams
  refine (good_onKey _ _ _ _ _ (I _ (by simp))).bind fun c _ => ?_
  refine (good_onKey _ _ _ _ _ (I _ (by simp))).bind fun c _ => ?_
  refine (good_onKey _ _ _ _ _ (I _ (by simp))).bind fun c _ => ?_
  refine (good_accumulation c).bind fun c _ => ?_
  refine (good_onKey _ _ _ _ _ (D _ (by simp))).bind fun c _ => ?_
  refine (good_sizeMode F c).bind fun c _ => ?_
  refine (good_onKey _ _ _ _ _ (S _ (by simp))).bind fun c _ => ?_
  refine (good_onKey _ _ _ _ _ (S _ (by simp))).bind fun c _ => ?_
  refine (good_onKey _ _ _ _ _ (S _ (by simp))).bind fun c _ => ?_
  refine (good_onKey _ _ _ _ _ (S _ (by simp))).bind fun c _ => ?_
  refine (good_onKey _ _ _ _ _ (D _ (by simp))).bind fun c _ => ?_
  refine (good_onKey _ _ _ _ _ (D _ (by simp))).bind fun c _ => ?_
  refine (good_onKey _ _ _ _ _ (S _ (by simp))).bind fun c _ => ?_
  refine (good_onKey _ _ _ _ _ (B _ (by simp))).bind fun c _ => ?_
  refine (good_onKey _ _ _ _ _ (S _ (by simp))).bind fun c _ => ?_
  refine (good_onKey _ _ _ _ _ (S _ (by simp))).bind fun c _ => ?_
  refine (good_getOr _ _ _ _ (I _ (by simp))).bind fun v _ => ?_
  exact Or.inl ⟨_, rfl⟩

end Amg
end Istl
