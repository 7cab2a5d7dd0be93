import Verif.Lemmas.AmgConfig
import Mathlib.Tactic.NormNum

/-!
# C90: what a ParameterTree means to the AMG
-/

namespace Istl
namespace Amg

/-- If the constructor accepts the tree, every parameter is the value of its key or its default, and the sizes of aggregates are the explicit
ones or those of the size mode. -/
theorem C90_configured {V : Conv} {t : PTree} {c : AmgChoice} (h : amgConfig V t = .ok c) :
    Configured V t c ∧ (Fits V t → Sizes V t c.params) :=
  ⟨(amgConfig_ok h).1, (amgConfig_ok h).2.1⟩

/-- The constructor accepts exactly the valid trees; otherwise it throws one of four exceptions, before any hierarchy is built. -/
theorem C90_errors {V : Conv} {t : PTree} (F : Fits V t) :
    ((∃ c, amgConfig V t = .ok c) ↔ Valid V t) ∧
    (¬ Valid V t → ∃ e, (e = .rangeError ∨ e = .invalidState ∨ e = .notImplemented ∨ e = .invalidFactoryConfiguration) ∧
      amgConfig V t = .throw e) := by
  refine ⟨⟨fun ⟨c, h⟩ => (amgConfig_ok h).2.2, fun hV => ?_⟩, fun hV => ?_⟩
  · rcases amgConfig_good F with h | ⟨_, _, _, h⟩
    · exact h
    · exact absurd hV h
  · rcases amgConfig_good F with ⟨c, h⟩ | ⟨e, he, h, _⟩
    · exact absurd (amgConfig_ok h).2.2 hV
    · exact ⟨e, he, h⟩

/-- Two trees that agree on the keys of the table configure the same method: other keys are ignored. -/
theorem C90_ignores {V : Conv} {t t' : PTree} (h : ∀ k ∈ amgKeys, t k = t' k) : amgConfig V t = amgConfig V t' := by
  have G : ∀ {α : Type} (p : String → Option α) (k : String), k ∈ amgKeys → t.get p k = t'.get p k := by
    intro α p k hk; unfold PTree.get; rw [h k hk]
  have O : ∀ {α : Type} (p : String → Option α) (k : String) (d : α), k ∈ amgKeys → t.getOr p k d = t'.getOr p k d := by
    intro α p k d hk; unfold PTree.getOr; rw [h k hk, G p k hk]
  have K : ∀ {α C : Type} (p : String → Option α) (k : String) (set : α → C → C), k ∈ amgKeys → onKey t p k set = onKey t' p k set := by
    intro α C p k set hk; funext c; unfold onKey; rw [h k hk, G p k hk]
  have A : setAccumulation V t = setAccumulation V t' := by
    funext c; unfold setAccumulation; rw [h "accumulationMode" (by simp [amgKeys])]
  have D : diamOf V t = diamOf V t' := by
    unfold diamOf
    rw [h "MaxAggregateDistance" (by simp [amgKeys]), G V.size "maxAggregateDistance" (by simp [amgKeys])]
  have S : setSizeMode V t = setSizeMode V t' := by
    funext c; unfold setSizeMode
    rw [h "defaultAggregationSizeMode" (by simp [amgKeys]), D, G V.size "defaultAggregationDimension" (by simp [amgKeys])]
  unfold amgConfig amgParams
  rw [A, S, O V.int "smootherIterations" _ (by simp [amgKeys]), O V.double "smootherRelaxation" _ (by simp [amgKeys]),
    O some "strengthMeasure" _ (by simp [amgKeys]), O V.int "diagonalRowIndex" _ (by simp [amgKeys]),
    O V.bool "criterionSymmetric" _ (by simp [amgKeys]), O V.int "verbosity" _ (by simp [amgKeys]), K V.int "maxLevel" _ (by simp [amgKeys]),
    K V.int "minCoarseningRate" _ (by simp [amgKeys]), K V.int "coarsenTarget" _ (by simp [amgKeys]),
    K V.double "prolongationDampingFactor" _ (by simp [amgKeys]), K V.size "maxAggregateDistance" _ (by simp [amgKeys]),
    K V.size "minAggregateSize" _ (by simp [amgKeys]), K V.size "maxAggregateSize" _ (by simp [amgKeys]),
    K V.size "maxAggregateConnectivity" _ (by simp [amgKeys]), K V.double "alpha" _ (by simp [amgKeys]),
    K V.double "beta" _ (by simp [amgKeys]), K V.size "gamma" _ (by simp [amgKeys]), K V.bool "additive" _ (by simp [amgKeys]),
    K V.size "preSteps" _ (by simp [amgKeys]), K V.size "postSteps" _ (by simp [amgKeys])]

/-- Unless the sizes are given explicitly, the aggregates may grow to at least the size they must have, and this size is positive (what the
aggregation needs, see C41). -/
theorem C90_sizes_ok {V : Conv} {t : PTree} {c : AmgChoice} (h : amgConfig V t = .ok c) (F : Fits V t)
    (h1 : t "minAggregateSize" = none) (h2 : t "maxAggregateSize" = none) :
    1 ≤ c.params.minAggregateSize ∧ c.params.minAggregateSize ≤ c.params.maxAggregateSize := by
  obtain ⟨dist, lo, hi, hd, _, r1, r2⟩ := (C90_configured h).2 F
  have e1 : c.params.minAggregateSize = lo := by
    rcases r1 with ⟨_, e⟩ | ⟨s, e, _⟩
    · exact e
    · rw [h1] at e; exact absurd e (by simp)
  have e2 : c.params.maxAggregateSize = hi := by
    rcases r2 with ⟨_, e⟩ | ⟨s, e, _⟩
    · exact e
    · rw [h2] at e; exact absurd e (by simp)
  rw [e1, e2]
  have P : ∀ d dim : Nat, 1 ≤ d → 1 ≤ d ^ dim ∧ d ^ dim ≤ d ^ dim * 3 / 2 := by
    intro d dim hd
    have := Nat.pow_pos (n := dim) hd
    omega
  cases hd with
  | plain _ => omega
  | isotropic _ _ _ _ k _ => exact P _ _ k
  | anisotropic _ _ _ _ k _ _ => exact P _ _ k

/-- Finding: the mode "successive" does not set the accumulation mode but the coarsening target, to 2, whatever `coarsenTarget` says
(amg.hh:557-558). -/
theorem C90_successive {V : Conv} {t : PTree} {c : AmgChoice} (h : amgConfig V t = .ok c) {s : String}
    (hs : t "accumulationMode" = some s) (hl : V.lower s = "successive") :
    c.params.coarsenTarget = 2 := by
  rcases (C90_configured h).1.coarsenTarget with ⟨_, _, _, e⟩ | ⟨k, _⟩
  · exact e
  · exact absurd hl (k s hs)

/-- Finding: with the documented key `maxAggregateDistance`, the size mode still works with diameter 2; the key only replaces the resulting
distance (amg.hh:572 tests a key with a capital M). -/
theorem C90_distance_key {V : Conv} {t : PTree} {c : AmgChoice} (h : amgConfig V t = .ok c) (F : Fits V t) {s e : String} {dim : Nat}
    (hs : t "defaultAggregationSizeMode" = some s) (he : t "defaultAggregationDimension" = some e) (hdim : V.size e = some dim)
    (hc : t "MaxAggregateDistance" = none) (h1 : t "minAggregateSize" = none) (h2 : t "maxAggregateSize" = none) :
    c.params.minAggregateSize = 2 ^ dim ∧ c.params.maxAggregateSize = 2 ^ dim * 3 / 2 := by
  obtain ⟨dist, lo, hi, hd, _, r1, r2⟩ := (C90_configured h).2 F
  have e1 : c.params.minAggregateSize = lo := by
    rcases r1 with ⟨_, e⟩ | ⟨s, e, _⟩
    · exact e
    · rw [h1] at e; exact absurd e (by simp)
  have e2 : c.params.maxAggregateSize = hi := by
    rcases r2 with ⟨_, e⟩ | ⟨s, e, _⟩
    · exact e
    · rw [h2] at e; exact absurd e (by simp)
  rw [e1, e2]
  cases hd with
  | plain k => rw [hs] at k; exact absurd k (by simp)
  | isotropic _ _ k1 k2 _ k3 =>
    rw [he] at k1; injection k1 with k1; subst k1; rw [hdim] at k2; injection k2 with k2; subst k2
    rcases k3 with ⟨_, rfl⟩ | ⟨k, _⟩
    · exact ⟨rfl, rfl⟩
    · exact absurd hc k
  | anisotropic _ _ k1 k2 _ _ k3 =>
    rw [he] at k1; injection k1 with k1; subst k1; rw [hdim] at k2; injection k2 with k2; subst k2
    rcases k3 with ⟨_, rfl⟩ | ⟨k, _⟩
    · exact ⟨rfl, rfl⟩
    · exact absurd hc k

/-- Finding: with only the key with the capital M the size mode throws. -/
theorem C90_capital_only {V : Conv} {t : PTree} (F : Fits V t) {s : String} (hs : t "defaultAggregationSizeMode" = some s)
    (h1 : t "MaxAggregateDistance" ≠ none) (h2 : t "maxAggregateDistance" = none) : ∃ e, amgConfig V t = .throw e := by
  have : ¬ Valid V t := fun hV => (hV.sizeMode s hs).2.2 h1 h2
  obtain ⟨e, _, h⟩ := (C90_errors F).2 this
  exact ⟨e, h⟩

/-- The factory: one of five smoothers, wrapped according to the operator; everything else is an exception. -/
theorem C90_creator {V : Conv} {valid : Bool} {op : OpKind} {t : PTree} {r : SmootherKind × Wrap × AmgChoice}
    (h : amgCreator V valid op t = .ok r) :
    valid = true ∧ amgConfig V t = .ok r.2.2 ∧
    (op = .matrixAdapter ∧ r.2.1 = .bare ∨ op = .overlapping ∧ r.2.1 = .block ∨ op = .nonoverlapping ∧ r.2.1 = .novlpBlock) ∧
    ∃ name, Reads some t "smoother" "ssor" name ∧ (name = "ssor" ∧ r.1 = .ssor ∨ name = "sor" ∧ r.1 = .sor ∨ name = "jac" ∧ r.1 = .jac ∨
      name = "gs" ∧ r.1 = .gs ∨ name = "ilu" ∧ r.1 = .ilu) := by
  cases valid with
  | false => exact absurd h (by simp [amgCreator])
  | true =>
    unfold amgCreator at h
    rw [if_pos rfl] at h
    simp only [Res.bind_eq_ok] at h
    obtain ⟨name, hn, hm⟩ := h
    have hr := getOr_ok hn
    have T : ∀ {s : SmootherKind}, smootherOf name = .ok s → (name = "ssor" ∧ s = .ssor ∨ name = "sor" ∧ s = .sor ∨ name = "jac" ∧ s = .jac ∨
        name = "gs" ∧ s = .gs ∨ name = "ilu" ∧ s = .ilu) := by
      intro s hs
      unfold smootherOf at hs
      by_cases a1 : name = "ssor"
      · rw [if_pos a1] at hs; injection hs with hs; exact Or.inl ⟨a1, hs.symm⟩
      rw [if_neg a1] at hs
      by_cases a2 : name = "sor"
      · rw [if_pos a2] at hs; injection hs with hs; exact Or.inr (Or.inl ⟨a2, hs.symm⟩)
      rw [if_neg a2] at hs
      by_cases a3 : name = "jac"
      · rw [if_pos a3] at hs; injection hs with hs; exact Or.inr (Or.inr (Or.inl ⟨a3, hs.symm⟩))
      rw [if_neg a3] at hs
      by_cases a4 : name = "gs"
      · rw [if_pos a4] at hs; injection hs with hs; exact Or.inr (Or.inr (Or.inr (Or.inl ⟨a4, hs.symm⟩)))
      rw [if_neg a4] at hs
      by_cases a5 : name = "ilu"
      · rw [if_pos a5] at hs; injection hs with hs; exact Or.inr (Or.inr (Or.inr (Or.inr ⟨a5, hs.symm⟩)))
      rw [if_neg a5] at hs; exact absurd hs (by simp)
    unfold makeAMG at hm
    cases op with
    | other => exact absurd hm (by simp)
    | matrixAdapter =>
      simp only [Res.bind_eq_ok] at hm
      obtain ⟨s, hs, c, hc, e⟩ := hm
      injection e with e; subst e
      exact ⟨rfl, hc, Or.inl ⟨rfl, rfl⟩, name, hr, T hs⟩
    | overlapping =>
      simp only [Res.bind_eq_ok] at hm
      obtain ⟨s, hs, c, hc, e⟩ := hm
      injection e with e; subst e
      exact ⟨rfl, hc, Or.inr (Or.inl ⟨rfl, rfl⟩), name, hr, T hs⟩
    | nonoverlapping =>
      simp only [Res.bind_eq_ok] at hm
      obtain ⟨s, hs, c, hc, e⟩ := hm
      injection e with e; subst e
      exact ⟨rfl, hc, Or.inr (Or.inr ⟨rfl, rfl⟩), name, hr, T hs⟩

/-- The factory accepts every valid tree for the three kinds of operators. -/
theorem C90_creator_accepts {V : Conv} {op : OpKind} {t : PTree} (F : Fits V t) (hV : Valid V t) (ho : op ≠ .other)
    (hs : ∀ s, t "smoother" = some s → s ∈ ["ssor", "sor", "jac", "gs", "ilu"]) : ∃ r, amgCreator V true op t = .ok r := by
  obtain ⟨c, hc⟩ := (C90_errors F).1.2 hV
  have : ∃ name k, t.getOr some "smoother" "ssor" = .ok name ∧ smootherOf name = .ok k := by
    cases hk : t "smoother" with
    | none => exact ⟨"ssor", .ssor, by simp [PTree.getOr, hk], rfl⟩
    | some s =>
      have e : t.getOr some "smoother" "ssor" = .ok s := by simp [PTree.getOr, PTree.get, hk]
      have := hs s hk
      simp only [List.mem_cons, List.not_mem_nil, or_false] at this
      rcases this with rfl | rfl | rfl | rfl | rfl
      exacts [⟨_, .ssor, e, rfl⟩, ⟨_, .sor, e, rfl⟩, ⟨_, .jac, e, rfl⟩, ⟨_, .gs, e, rfl⟩, ⟨_, .ilu, e, rfl⟩]
  obtain ⟨name, k, h1, h2⟩ := this
  unfold amgCreator
  rw [if_pos rfl, h1, Res.ok_bind]
  unfold makeAMG
  cases op with
  | other => exact absurd rfl ho
  | matrixAdapter => exact ⟨(k, .bare, c), by simp only [h2, hc, Res.ok_bind]⟩
  | overlapping => exact ⟨(k, .block, c), by simp only [h2, hc, Res.ok_bind]⟩
  | nonoverlapping => exact ⟨(k, .novlpBlock, c), by simp only [h2, hc, Res.ok_bind]⟩

/-! ## A concrete configuration -/

/-- Texts of one digit. -/
def demoConv : Conv :=
  { int := fun s => if s = "2" then some 2 else if s = "5" then some 5 else none
    size := fun s => if s = "2" then some 2 else if s = "3" then some 3 else none
    double := fun s => if s = "0.25" then some (1 / 4) else none
    bool := fun s => if s = "false" then some false else none
    lower := fun s => if s = "Isotropic" then "isotropic" else if s = "Successive" then "successive" else s }

/-- A tree that uses a size mode, a strength measure, a smoother and a key nobody reads. -/
def demoTree : PTree := fun k =>
  if k = "defaultAggregationSizeMode" then some "Isotropic" else if k = "defaultAggregationDimension" then some "3"
  else if k = "alpha" then some "0.25" else if k = "maxLevel" then some "5" else if k = "smoother" then some "ilu"
  else if k = "criterionSymmetric" then some "false" else if k = "maxAggregateDistance" then some "3"
  else if k = "accumulationMode" then some "Successive" else if k = "color" then some "red" else none

theorem demo_fits : Fits demoConv demoTree := by
  intro s e dim d h1 h2 h3 h4
  have e1 : s = "Isotropic" := by injection h1 with h1; exact h1.symm
  have e2 : e = "3" := by injection h2 with h2; exact h2.symm
  subst e1; subst e2
  have e3 : dim = 3 := by injection h3 with h3; exact h3.symm
  subst e3
  rcases h4 with ⟨_, rfl⟩ | ⟨k, _⟩
  · refine ⟨by omega, fun _ => by omega, ?_, ?_⟩ <;> (unfold sizeMod; norm_num)
  · exact absurd rfl k

theorem demo_valid : Valid demoConv demoTree := by
  refine ⟨?_, ?_, ?_, ?_, ⟨.diagonal 0, "diagonal", 0, Or.inl ⟨rfl, rfl⟩, Or.inl ⟨rfl, rfl⟩, Or.inl ⟨rfl, 0, by omega, rfl, rfl⟩⟩,
    ⟨.successiveAccu, Or.inr ⟨"Successive", rfl, Or.inr (Or.inr ⟨rfl, rfl⟩)⟩⟩, ?_⟩
  · intro k hk
    simp only [List.mem_cons, List.not_mem_nil, or_false] at hk
    rcases hk with rfl | rfl | rfl | rfl | rfl | rfl
    all_goals (intro s hs; first | (injection hs; done) | (injection hs with hs; subst hs))
    exact ⟨5, rfl⟩
  · intro k hk
    simp only [List.mem_cons, List.not_mem_nil, or_false] at hk
    rcases hk with rfl | rfl | rfl | rfl
    all_goals (intro s hs; first | (injection hs; done) | (injection hs with hs; subst hs))
    exact ⟨1 / 4, rfl⟩
  · intro k hk
    simp only [List.mem_cons, List.not_mem_nil, or_false] at hk
    rcases hk with rfl | rfl | rfl | rfl | rfl | rfl | rfl
    all_goals (intro s hs; first | (injection hs; done) | (injection hs with hs; subst hs))
    exact ⟨3, rfl⟩
  · intro k hk
    simp only [List.mem_cons, List.not_mem_nil, or_false] at hk
    rcases hk with rfl | rfl
    all_goals (intro s hs; first | (injection hs; done) | (injection hs with hs; subst hs))
    exact ⟨false, rfl⟩
  · intro s hs
    injection hs with hs
    subst hs
    exact ⟨Or.inl rfl, ⟨"3", 3, rfl, rfl⟩, fun h => absurd rfl h⟩

/-- The tree is accepted, with ILU smoothing wrapped for an overlapping operator; sizes 8 to 12, distance 3 as given, target 2. -/
example : ∃ r, amgCreator demoConv true .overlapping demoTree = .ok r ∧ r.2.2.params.minAggregateSize = 8 ∧
    r.2.2.params.maxAggregateSize = 12 ∧ r.2.2.params.coarsenTarget = 2 := by
  obtain ⟨r, hr⟩ := C90_creator_accepts (op := .overlapping) demo_fits demo_valid (by simp)
    (fun s hs => by injection hs with hs; subst hs; simp)
  have hc := (C90_creator hr).2.1
  have hd := C90_distance_key hc demo_fits (s := "Isotropic") (e := "3") (dim := 3) rfl rfl rfl rfl rfl rfl
  exact ⟨r, hr, by rw [hd.1]; norm_num, by rw [hd.2]; norm_num, C90_successive hc (s := "Successive") rfl rfl⟩

/-- The empty tree gives the defaults: symmetric criterion, SSOR, sizes 4 to 6, target 1000, no output. -/
example (V : Conv) (hl : V.lower "diagonal" = "diagonal") : amgCreator V true .matrixAdapter (fun _ => none) =
    .ok (.ssor, .bare, ⟨1, 1, .diagonal 0, true, { AmgParams.default with debugLevel := 0 }⟩) := by
  simp [amgCreator, makeAMG, PTree.getOr, smootherOf, amgConfig, amgParams, onKey, setAccumulation, setSizeMode, chooseNorm, hl]

end Amg
end Istl
