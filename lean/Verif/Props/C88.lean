import Verif.Model.AmgPre
import Verif.Spec.AmgPre
import Verif.Props.C54

/-!
# C88: `AMG::pre` and `AMG::post`

The initial guess is corrected at Dirichlet rows and nowhere else, made consistent between the processes, and every smoother is prepared once.
-/

namespace Istl
namespace Amg
open Par Finset

variable {B V : Type} [AddCommGroup B] [DecidableEq B] [AddCommGroup V]

omit [DecidableEq B] in
theorem scan_go [DecidableEq B] (i : Nat) : ∀ (r : Row B) (s : RowScan B), (r.map Prod.fst).Nodup →
    let t := r.foldl (fun (s : RowScan B) e =>
      if i = e.1 then { s with diagonal := e.2, hasDiagonal := true } else if e.2 ≠ 0 then { s with isDirichlet := false } else s) s
    (t.isDirichlet = true ↔ s.isDirichlet = true ∧ ∀ e ∈ r, e.1 ≠ i → e.2 = 0) ∧ (t.hasDiagonal = true ↔ s.hasDiagonal = true ∨ ∃ e ∈ r, e.1 = i) ∧
      (∀ e ∈ r, e.1 = i → t.diagonal = e.2) ∧ ((∀ e ∈ r, e.1 ≠ i) → t.diagonal = s.diagonal) := by
  intro r
  induction r with
  | nil => intro s _; simp
  | cons e r ih =>
    intro s hn
    rw [List.map_cons, List.nodup_cons] at hn
    dsimp only
    rw [List.foldl_cons]
    have key := fun s => ih s hn.2
    dsimp only at key
    by_cases h1 : i = e.1
    · rw [if_pos h1]
      obtain ⟨k1, k2, k3, k4⟩ := key { s with diagonal := e.2, hasDiagonal := true }
      have hno : ∀ e' ∈ r, e'.1 ≠ i := by
        intro e' he' h
        exact hn.1 (List.mem_map.2 ⟨e', he', h.trans h1⟩)
      refine ⟨?_, ?_, ?_, ?_⟩
      · rw [k1]; simp [h1]
      · rw [k2]; simp [h1]
      · intro e' he' h
        rcases List.mem_cons.1 he' with rfl | he'
        · exact k4 hno
        · exact absurd h (hno e' he')
      · intro h; exact absurd h1.symm (h e (by simp))
    · rw [if_neg h1]
      have h1' : e.1 ≠ i := fun h => h1 h.symm
      by_cases h2 : e.2 ≠ 0
      · rw [if_pos h2]
        obtain ⟨k1, k2, k3, k4⟩ := key { s with isDirichlet := false }
        refine ⟨?_, ?_, ?_, ?_⟩
        · rw [k1]; simp [h1', h2]
        · rw [k2]; simp [h1']
        · intro e' he' h
          rcases List.mem_cons.1 he' with rfl | he'
          · exact absurd h h1'
          · exact k3 e' he' h
        · intro h; exact k4 fun e' he' => h e' (by simp [he'])
      · rw [if_neg h2]
        obtain ⟨k1, k2, k3, k4⟩ := key s
        rw [not_not] at h2
        refine ⟨?_, ?_, ?_, ?_⟩
        · rw [k1]; simp [h1', h2]
        · rw [k2]; simp [h1']
        · intro e' he' h
          rcases List.mem_cons.1 he' with rfl | he'
          · exact absurd h h1'
          · exact k3 e' he' h
        · intro h; exact k4 fun e' he' => h e' (by simp [he'])

theorem entry_zero_iff {A : SpMat B} (hA : A.WF) {i : Nat} (hi : i < A.n) :
    (∀ e ∈ A.row i, e.1 ≠ i → e.2 = 0) ↔ ∀ j, j ≠ i → A.entry i j = 0 := by
  obtain ⟨ha, -⟩ := hA i hi
  constructor
  · intro h j hj
    by_cases hm : ∃ b, (j, b) ∈ A.row i
    · obtain ⟨b, hb⟩ := hm
      rw [SpMat.entry, Row.val_of_mem ha hb]
      exact h _ hb hj
    · rw [SpMat.entry, Row.val_of_not_mem (fun b hb => hm ⟨b, hb⟩)]
  · intro h e he hne
    have := h e.1 hne
    rwa [SpMat.entry, Row.val_of_mem ha (b := e.2) he] at this

/-- The scan of a row finds out whether it is a Dirichlet row, and its diagonal block. -/
theorem scan_spec {A : SpMat B} (hA : A.WF) {i : Nat} (hi : i < A.n) :
    (((scanRow i (A.row i)).isDirichlet && (scanRow i (A.row i)).hasDiagonal) = true ↔ Dirichlet A i) ∧
      (Dirichlet A i → (scanRow i (A.row i)).diagonal = A.entry i i) := by
  obtain ⟨ha, -⟩ := hA i hi
  obtain ⟨k1, k2, k3, -⟩ := scan_go i (A.row i) ⟨true, false, 0⟩ ha.nodup
  have e2 : (∃ e ∈ A.row i, e.1 = i) ↔ A.Has i i := by
    unfold SpMat.Has Row.Has
    constructor
    · rintro ⟨e, he, h⟩; exact ⟨hi, e.2, by rw [show (i, e.2) = e from Prod.ext h.symm rfl]; exact he⟩
    · rintro ⟨-, b, hb⟩; exact ⟨_, hb, rfl⟩
  refine ⟨?_, ?_⟩
  · rw [Bool.and_eq_true]
    unfold scanRow
    rw [k1, k2, e2, entry_zero_iff hA hi]
    simp only [true_and, Bool.false_eq_true, false_or]
    exact and_comm
  · rintro ⟨⟨-, b, hb⟩, -⟩
    unfold scanRow
    rw [k3 _ hb rfl, SpMat.entry, Row.val_of_mem ha hb]

/-- The loop over the first `n` rows. -/
theorem dirichlet_go {solve : B → V → Res V} {A : SpMat B} (hA : A.WF) (b : Nat → V) :
    ∀ (n : Nat), n ≤ A.n → ∀ (x x' : Nat → V), (List.range n).foldlM (dirichletRow solve A b) x = .ok x' →
      ∀ i, (i < n → Dirichlet A i → solve (A.entry i i) (b i) = .ok (x' i)) ∧ ((n ≤ i ∨ ¬Dirichlet A i) → x' i = x i) := by
  intro n
  induction n with
  | zero =>
    intro _ x x' h i
    rw [show x = x' from Res.ok.inj h]
    exact ⟨fun h => absurd h (Nat.not_lt_zero _), fun _ => rfl⟩
  | succ n ih =>
    intro hn x x' h i
    rw [List.range_succ, List.foldlM_append] at h
    obtain ⟨y, h1, h2⟩ := Res.bind_eq_ok.1 h
    obtain ⟨k1, k2⟩ := ih (by omega) x y h1 i
    rw [List.foldlM_cons] at h2
    obtain ⟨z, h2, h3⟩ := Res.bind_eq_ok.1 h2
    rw [← show z = x' from Res.ok.inj h3]
    obtain ⟨s1, s2⟩ := scan_spec hA (show n < A.n by omega)
    unfold dirichletRow at h2
    by_cases hd : Dirichlet A n
    · rw [if_pos (s1.2 hd), s2 hd] at h2
      obtain ⟨v, e1, e2⟩ := Res.bind_eq_ok.1 h2
      rw [← Res.ok.inj e2]
      by_cases hin : i = n
      · subst hin
        rw [upd_same]
        refine ⟨fun _ _ => e1, ?_⟩
        rintro (h | h)
        · omega
        · exact absurd hd h
      · rw [upd_ne y v hin]
        exact ⟨fun h => k1 (by omega), fun h => k2 (h.imp_left (by omega))⟩
    · have hs : ¬((scanRow n (A.row n)).isDirichlet && (scanRow n (A.row n)).hasDiagonal) = true := fun h => hd (s1.1 h)
      dsimp only at h2
      rw [if_neg hs] at h2
      rw [← Res.ok.inj h2]
      refine ⟨fun h hdi => ?_, fun h => k2 (h.imp_left (by omega))⟩
      by_cases hin : i = n
      · subst hin; exact absurd hdi hd
      · exact k1 (by omega) hdi

/-- `AMG::pre` sets the initial guess at the Dirichlet rows to the solution of the row, and changes no other entry. -/
theorem C88_dirichlet {solve : B → V → Res V} (β : BlockAct B V V) (hs : Solves β solve) {A : SpMat B} (hA : A.WF) (b x x' : Nat → V)
    (h : dirichlet solve A b x = .ok x') :
    (∀ i, Dirichlet A i → β.mul (A.entry i i) (x' i) = b i) ∧ ∀ i, ¬Dirichlet A i → x' i = x i := by
  refine ⟨fun i hi => ?_, fun i hi => ?_⟩
  · exact hs _ _ _ ((dirichlet_go hA b A.n (le_refl _) x x' h i).1 hi.1.1 hi)
  · exact (dirichlet_go hA b A.n (le_refl _) x x' h i).2 (Or.inr hi)

/-- So the residual `b - A x` vanishes at all Dirichlet rows, whatever the initial guess was. -/
theorem C88_residual {solve : B → V → Res V} (β : BlockAct B V V) (hs : Solves β solve) {A : SpMat B} (hA : A.WF) (b x x' : Nat → V)
    (h : dirichlet solve A b x = .ok x') (i : Nat) (hi : Dirichlet A i) : ∑ j ∈ range A.m, β.mul (A.entry i j) (x' j) = b i := by
  rw [← (C88_dirichlet β hs hA b x x' h).1 i hi]
  obtain ⟨⟨hn, c, hc⟩, h0⟩ := hi
  refine Finset.sum_eq_single i (fun j _ hj => ?_) (fun hm => ?_)
  · rw [h0 j hj]; simp
  · exact absurd (mem_range.2 ((hA i hn).2 _ hc)) hm

/-- `AMG::pre` succeeds exactly if the diagonal block of every Dirichlet row can be solved with; otherwise the exception of the block solver
gets out. -/
theorem C88_succeeds_iff {solve : B → V → Res V} {A : SpMat B} (hA : A.WF) (b x : Nat → V) :
    (∃ x', dirichlet solve A b x = .ok x') ↔ ∀ i, Dirichlet A i → ∃ v, solve (A.entry i i) (b i) = .ok v := by
  constructor
  · rintro ⟨x', h⟩ i hi
    exact ⟨x' i, (dirichlet_go hA b A.n (le_refl _) x x' h i).1 hi.1.1 hi⟩
  · intro h
    have : ∀ (l : List Nat), (∀ i ∈ l, i < A.n) → ∀ x, ∃ x', l.foldlM (dirichletRow solve A b) x = .ok x' := by
      intro l
      induction l with
      | nil => intro _ x; exact ⟨x, rfl⟩
      | cons i l ih =>
        intro hl x
        obtain ⟨s1, s2⟩ := scan_spec hA (hl i (by simp))
        rw [List.foldlM_cons]
        unfold dirichletRow
        by_cases hd : Dirichlet A i
        · obtain ⟨v, hv⟩ := h i hd
          dsimp only
          rw [if_pos (s1.2 hd), s2 hd, hv, Res.ok_bind, Res.ok_bind]
          exact ih (fun j hj => hl j (by simp [hj])) _
        · have hs : ¬((scanRow i (A.row i)).isDirichlet && (scanRow i (A.row i)).hasDiagonal) = true := fun h => hd (s1.1 h)
          dsimp only
          rw [if_neg hs, Res.ok_bind]
          exact ih (fun j hj => hl j (by simp [hj])) _
    exact this _ (fun i hi => List.mem_range.1 hi) x

/-! ### All processes -/

theorem parLoop {solve : B → V → Res V} {A : Nat → SpMat B} {x b : Nat → Nat → V} : ∀ (P : Nat) (y0 y : Nat → Nat → V),
    (List.range P).foldlM (fun (y : Nat → Nat → V) p => do
      let v ← dirichlet solve (A p) (b p) (x p)
      .ok (upd y p v)) y0 = .ok y →
    ∀ p, p < P → dirichlet solve (A p) (b p) (x p) = .ok (y p) := by
  intro P
  induction P with
  | zero => intro _ _ _ p h; omega
  | succ P ih =>
    intro y0 y h p hp
    rw [List.range_succ, List.foldlM_append] at h
    obtain ⟨z, h1, h2⟩ := Res.bind_eq_ok.1 h
    rw [List.foldlM_cons] at h2
    obtain ⟨w, h2, h3⟩ := Res.bind_eq_ok.1 h2
    rw [← show w = y from Res.ok.inj h3]
    obtain ⟨v, e1, e2⟩ := Res.bind_eq_ok.1 h2
    rw [← Res.ok.inj e2]
    by_cases hpp : p = P
    · subst hpp; rw [upd_same]; exact e1
    · rw [upd_ne z v hpp]; exact ih y0 z h1 p (by omega)

/-- On any number of processes with an overlapping decomposition of the matrix `M`: after `AMG::pre` the initial guess is consistent, it solves
all Dirichlet rows of the global system (those stored with a diagonal entry by their owner), and is unchanged in all other rows. The values on
entry only matter at the owners. -/
theorem C88_parallel {solve : B → V → Res V} (β : BlockAct B V V) (hs : Solves β solve) {P : Nat} {pis : Nat → PIS} {sz : Nat → Nat} {G : Finset Nat}
    (hD : Decomp P pis sz G) {A : Nat → SpMat B} {M : Nat → Nat → B} (hA : OverlapMat P pis sz G A M) (order : Nat → List Nat)
    (hord : ∀ q, q < P → (order q).Perm ((List.range P).filter (· ≠ q))) (x b y : Nat → Nat → V) (X C : Nat → V)
    (hx : ConsistentAtOwner P pis x X) (hb : ConsistentAtOwner P pis b C) (h : amgPrePar solve P pis A order x b = .ok y) :
    ∃ Y : Nat → V, Consistent P pis y Y ∧ ∀ p, p < P → ∀ e ∈ pis p, e.attr = .owner →
      ((∀ k ∈ G, k ≠ e.g → M e.g k = 0) → (A p).Has e.loc e.loc → globalMul β G M Y e.g = C e.g) ∧
        (((∃ k ∈ G, k ≠ e.g ∧ M e.g k ≠ 0) ∨ ¬(A p).Has e.loc e.loc) → Y e.g = X e.g) := by
  obtain ⟨z, h1, h2⟩ := Res.bind_eq_ok.1 h
  have hz := parLoop P x z h1
  obtain ⟨Y, hY⟩ := owner_values hD z
  refine ⟨Y, ?_, ?_⟩
  · rw [← Res.ok.inj h2]
    exact C36_consistent hD z Y hY order hord
  · intro p hp e he ho
    have hen : e.loc < (A p).n := by rw [hA.rows p hp]; exact hD.bounded p hp e he
    have hnc : e.attr ≠ .copy := by rw [ho]; simp
    obtain ⟨d1, d2⟩ := C88_dirichlet β hs (hA.wf p hp) (b p) (x p) (z p) (hz p hp)
    have hloc : (∀ j, j ≠ e.loc → (A p).entry e.loc j = 0) ↔ ∀ k ∈ G, k ≠ e.g → M e.g k = 0 := by
      constructor
      · intro hl k hk hke
        by_cases hf : ∃ f ∈ pis p, f.g = k
        · obtain ⟨f, hf, rfl⟩ := hf
          rw [← hA.entry p hp e he hnc f hf]
          refine hl _ fun hle => hke ?_
          rw [idx_eq_of_loc (hD.ok p hp) hf he hle]
        · push Not at hf
          exact hA.closed p hp e he hnc k hk hf
      · intro hg j hj
        by_cases hjs : j < sz p
        · obtain ⟨f, hf, rfl⟩ := hD.covered p hp j hjs
          rw [hA.entry p hp e he hnc f hf]
          refine hg _ (hD.inG p hp f hf) fun hge => hj ?_
          rw [idx_eq_of_g (hD.ok p hp) hf he hge]
        · refine Row.val_of_not_mem fun c hc => hjs ?_
          have := (hA.wf p hp e.loc hen).2 _ hc
          rwa [hA.cols p hp] at this
    refine ⟨fun hg hh => ?_, fun hg => ?_⟩
    · have hd : Dirichlet (A p) e.loc := ⟨hh, hloc.2 hg⟩
      have hv := d1 e.loc hd
      rw [hA.entry p hp e he hnc e he, hY p hp e he ho, hb p hp e he ho] at hv
      rw [← hv]
      refine Finset.sum_eq_single e.g (fun k hk hke => ?_) (fun hm => absurd (hD.inG p hp e he) hm)
      rw [hg k hk hke]; simp
    · have hd : ¬Dirichlet (A p) e.loc := by
        rintro ⟨h1, h2⟩
        rcases hg with ⟨k, hk, hke, hne⟩ | hg
        · exact hne (hloc.1 h2 k hk hke)
        · exact hg h1
      rw [← hY p hp e he ho, d2 _ hd, hx p hp e he ho]

/-! ### The smoothers -/

theorem preLoop_spec (n : Nat) : ∀ (k s : Nat) (calls : List (Nat × Nat × Nat)), s ≤ n → n - s ≤ k →
    preLoop n k (s, s, s) calls = (calls ++ (List.range' s (n - s)).map (fun l => (l, l, l)), (n, n, n)) := by
  intro k
  induction k with
  | zero =>
    intro s calls h1 h2
    obtain rfl : s = n := by omega
    simp [preLoop]
  | succ k ih =>
    intro s calls h1 h2
    rw [preLoop]
    by_cases h : s = n
    · subst h; simp
    · rw [if_pos (by simpa using h)]
      dsimp only
      rw [ih (s + 1) _ (by omega) (by omega)]
      have : n - s = n - (s + 1) + 1 := by omega
      rw [this, List.range'_succ]
      simp

theorem postLoop_spec (n : Nat) : ∀ (k s : Nat) (calls : List (Nat × Nat)), s ≤ n → n - s ≤ k →
    postLoop n k (s, s) calls = (calls ++ (List.range' s (n - s)).map (fun l => (l, l)), (n, n)) := by
  intro k
  induction k with
  | zero =>
    intro s calls h1 h2
    obtain rfl : s = n := by omega
    simp [postLoop]
  | succ k ih =>
    intro s calls h1 h2
    rw [postLoop]
    by_cases h : s = n
    · subst h; simp
    · rw [if_pos (by simpa using h)]
      dsimp only
      rw [ih (s + 1) _ (by omega) (by omega)]
      have : n - s = n - (s + 1) + 1 := by omega
      rw [this, List.range'_succ]
      simp

theorem preCalls_eq (levels : Nat) : preCalls levels = (List.range' 1 (levels - 1)).map fun l => (l, l, l) := by
  unfold preCalls
  by_cases h : 1 < levels
  · rw [if_pos h]
    dsimp only
    rw [if_pos (by omega), preLoop_spec (levels - 1) levels 1 [] (by omega) (by omega)]
    have e : levels - 1 = levels - 1 - 1 + 1 := by omega
    conv_rhs => rw [e, List.range'_concat]
    simp
    omega
  · rw [if_neg h]
    have : levels - 1 = 0 := by omega
    simp [this]

omit [AddCommGroup B] [DecidableEq B] [AddCommGroup V] in
theorem callPre_go {X : Type} (pre : Nat → X → X → X × X) : ∀ (n s : Nat) (v : Vectors X),
    let w := ((List.range' s n).map fun l => (l, l, l)).foldl (callPre pre) v
    ∀ l, (w.lhs l, w.rhs l) = if s ≤ l ∧ l < s + n then pre l (v.lhs l) (v.rhs l) else (v.lhs l, v.rhs l) := by
  intro n
  induction n with
  | zero => intro s v; dsimp only; intro l; rw [if_neg (by omega)]; rfl
  | succ n ih =>
    intro s v
    dsimp only
    intro l
    rw [List.range'_succ, List.map_cons, List.foldl_cons]
    have := ih (s + 1) (callPre pre v (s, s, s)) l
    rw [this]
    by_cases h1 : l = s
    · subst h1
      rw [if_neg (by omega), if_pos (by omega)]
      simp [callPre]
    · have e1 : (callPre pre v (s, s, s)).lhs l = v.lhs l := upd_ne _ _ h1
      have e2 : (callPre pre v (s, s, s)).rhs l = v.rhs l := upd_ne _ _ h1
      rw [e1, e2]
      by_cases h2 : s + 1 ≤ l ∧ l < s + 1 + n
      · rw [if_pos h2, if_pos (by omega)]
      · rw [if_neg h2, if_neg (by omega)]

omit [AddCommGroup B] [DecidableEq B] [AddCommGroup V] in
/-- Every smoother of the hierarchy is prepared exactly once, with the vectors of its level; the finest with the vectors of the caller, which get
what it leaves. Without smoothers the initial guess is made consistent. -/
theorem C88_smoothers {X : Type} (levels : Nat) (pre : Nat → X → X → X × X) (copy : X → X) (fresh : Vectors X) (x b : X) :
    let r := preRest levels pre copy fresh x b
    (r.2 = if 0 < levels then pre 0 x b else (copy x, b)) ∧ (r.1.lhs 0, r.1.rhs 0) = r.2 ∧
      ∀ l, 0 < l → (r.1.lhs l, r.1.rhs l) = if l < levels then pre l (fresh.lhs l) (fresh.rhs l) else (fresh.lhs l, fresh.rhs l) := by
  dsimp only
  have key := callPre_go pre (levels - 1) 1
    ⟨fun l => if l = 0 then (if 0 < levels then pre 0 x b else (copy x, b)).1 else fresh.lhs l,
      fun l => if l = 0 then (if 0 < levels then pre 0 x b else (copy x, b)).2 else fresh.rhs l⟩
  dsimp only at key
  rw [← preCalls_eq] at key
  refine ⟨?_, rfl, ?_⟩
  · have := key 0
    rw [if_neg (show ¬(1 ≤ 0 ∧ 0 < 1 + (levels - 1)) by omega)] at this
    exact this
  · intro l hl
    have := key l
    rw [if_neg (show ¬l = 0 by omega), if_neg (show ¬l = 0 by omega)] at this
    unfold preRest
    dsimp only
    rw [this]
    by_cases h : l < levels
    · rw [if_pos (by omega), if_pos h]
    · rw [if_neg (by omega), if_neg h]

/-- The whole of `pre` on one process: the finest smoother gets a start vector that solves the Dirichlet rows and is the caller's elsewhere, so that
the residual vanishes there; it returns what that smoother leaves, and the coarser smoothers get the vectors of their levels. -/
theorem C88_pre {solve : B → V → Res V} (β : BlockAct B V V) (hs : Solves β solve) {A : SpMat B} (hA : A.WF) (levels : Nat)
    (pre : Nat → (Nat → V) → (Nat → V) → (Nat → V) × (Nat → V)) (copy : (Nat → V) → (Nat → V)) (fresh v : Vectors (Nat → V)) (b x x' b' : Nat → V)
    (h : amgPre solve A levels pre copy fresh x b = .ok (v, x', b')) :
    ∃ x1 : Nat → V, (∀ i, Dirichlet A i → ∑ j ∈ range A.m, β.mul (A.entry i j) (x1 j) = b i) ∧ (∀ i, ¬Dirichlet A i → x1 i = x i) ∧
      ((x', b') = if 0 < levels then pre 0 x1 b else (copy x1, b)) ∧ v.lhs 0 = x' ∧ v.rhs 0 = b' ∧
      ∀ l, 0 < l → (v.lhs l, v.rhs l) = if l < levels then pre l (fresh.lhs l) (fresh.rhs l) else (fresh.lhs l, fresh.rhs l) := by
  unfold amgPre at h
  obtain ⟨x1, h1, h2⟩ := Res.bind_eq_ok.1 h
  obtain ⟨k1, k2, k3⟩ := C88_smoothers levels pre copy fresh x1 b
  have h2 : preRest levels pre copy fresh x1 b = (v, x', b') := by injection h2
  rw [h2] at k1 k2 k3
  refine ⟨x1, C88_residual β hs hA b x x1 h1, (C88_dirichlet β hs hA b x x1 h1).2, k1, ?_, ?_, k3⟩
  · exact congrArg Prod.fst k2
  · exact congrArg Prod.snd k2

/-- `post` is called once for every smoother, if there are at least two, or if there is one and the hierarchy has the maximal number of levels. -/
theorem C88_post (levels mlevels maxlevels : Nat) (h : 1 < levels ∨ maxlevels ≤ mlevels) :
    postCalls levels mlevels maxlevels = (List.range levels).map fun l => (l, l) := by
  unfold postCalls
  by_cases h0 : 0 < levels
  · rw [if_pos h0]
    dsimp only
    by_cases h1 : 1 < levels
    · rw [if_pos (show 0 ≠ levels - 1 by omega), if_pos (Or.inl (show 0 ≠ levels - 1 by omega)), postLoop_spec (levels - 1) levels 1 _ (by omega) (by omega)]
      have e : levels = levels - 1 - 1 + 1 + 1 := by omega
      conv_rhs => rw [e, List.range_eq_range', List.range'_succ, List.range'_concat]
      simp
      omega
    · obtain rfl : levels = 1 := by omega
      rw [if_neg (by omega), if_neg (by omega)]
      rfl
  · obtain rfl : levels = 0 := by omega
    rfl

/-- Finding: with one smoother and fewer levels than allowed (no coarse solver), `post` is called twice for the same smoother. -/
theorem C88_post_twice_counterexample (mlevels maxlevels : Nat) (h : mlevels < maxlevels) : postCalls 1 mlevels maxlevels = [(0, 0), (0, 0)] := by
  simp [postCalls, h]

/-! ### The hypotheses are met -/

/-- A matrix with a Dirichlet row (stored zero off the diagonal), a row without diagonal and an ordinary row. -/
def preMat : SpMat ℤ := ⟨3, 3, fun i => if i = 0 then [(0, 1), (2, 0)] else if i = 1 then [(0, 4), (1, 2)] else [(0, 0)]⟩

/-- Solve with a unit. -/
def preSolve (d r : ℤ) : Res ℤ := if d = 1 ∨ d = -1 then .ok (d * r) else .throw .fmatrixError

example : preMat.WF := by
  intro i hi
  have : i = 0 ∨ i = 1 ∨ i = 2 := by have : i < 3 := hi; omega
  rcases this with rfl | rfl | rfl <;> (constructor <;> simp [preMat, Row.Asc])

example : Solves intAct preSolve := by
  intro d r v h
  unfold preSolve at h
  split_ifs at h with hd
  rw [← Res.ok.inj h]
  show d * (d * r) = r
  rcases hd with rfl | rfl <;> ring

example : ∃ x', dirichlet preSolve preMat (fun _ => 7) (fun i => i) = .ok x' ∧ x' 0 = 7 ∧ x' 1 = 1 ∧ x' 2 = 2 := by
  refine ⟨_, rfl, ?_, ?_, ?_⟩ <;> decide

/-- With two levels, smoothers that leave the vectors unchanged: `pre` hands the corrected vector back. -/
example : ∃ v x' b', amgPre preSolve preMat 2 (fun _ x b => (x, b)) id ⟨fun _ _ => 0, fun _ _ => 3⟩ (fun i => i) (fun _ => 7) = .ok (v, x', b') ∧
    x' 0 = 7 ∧ x' 1 = 1 ∧ b' 1 = 7 ∧ v.rhs 1 0 = 3 := by
  refine ⟨_, _, _, rfl, ?_⟩
  decide +kernel

example : Dirichlet preMat 0 := by
  refine ⟨⟨by decide, 1, by decide⟩, fun j hj => ?_⟩
  have h1 : ∀ j, preMat.entry 0 j = if j = 0 then 1 else if j = 2 then 0 else 0 := by
    intro j
    by_cases h0 : j = 0
    · subst h0; rfl
    · by_cases h2 : j = 2
      · subst h2; rfl
      · simp only [h0, h2, if_false]
        exact Row.val_of_not_mem (by
          intro b hb
          have : (j, b) ∈ [(0, (1 : ℤ)), (2, 0)] := hb
          simp [h0, h2] at this)
  rw [h1]; simp [hj]

/-- The Laplacian of C54 with a Dirichlet condition at the global index 0; process 1 has this index as copy and its row is a Dirichlet row
with another value there. -/
def preOvMat : Nat → SpMat ℤ
  | 0 => { n := 3, m := 3, row := fun i => match i with | 0 => [(0, 1), (1, 0)] | 1 => [(0, -1), (1, 2), (2, -1)] | 2 => [(2, 1)] | _ => [] }
  | _ => { n := 3, m := 3, row := fun i => match i with | 0 => [(0, 2), (1, -1)] | 1 => [(0, -1), (1, 2), (2, -1)] | 2 => [(2, -1)] | _ => [] }

/-- The global matrix. -/
def preM (g h : Nat) : ℤ := if g = 0 then (if h = 0 then 1 else 0) else demoM g h

example : OverlapMat 2 demoOv (fun _ => 3) {0, 1, 2} preOvMat preM where
  wf p hp := by
    interval_cases p <;> · intro i hi
                           have hi : i < 3 := hi
                           interval_cases i <;> simp [preOvMat, Row.Asc]
  rows p hp := by interval_cases p <;> rfl
  cols p hp := by interval_cases p <;> rfl
  entry p hp := by interval_cases p <;> decide
  closed p hp := by interval_cases p <;> decide

/-- Both processes end with the value 5 of the right hand side at index 0, the others keep their start values 8 and 9. -/
example : ∃ y, amgPrePar preSolve 2 demoOv preOvMat (fun q => [1 - q]) (fun p i => (if p = 0 then [7, 8, 0] else [9, 0, 0]).getD i 0)
    (fun p i => (if p = 0 then [5, 6, 0] else [4, 0, 0]).getD i 0) = .ok y ∧
    (List.range 3).map (y 0) = [5, 8, 9] ∧ (List.range 3).map (y 1) = [9, 8, 5] := by
  refine ⟨_, rfl, ?_, ?_⟩ <;> decide +kernel

end Amg
end Istl
