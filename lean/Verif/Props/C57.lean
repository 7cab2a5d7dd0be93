import Verif.Lemmas.OvlExact
import Verif.Props.C52

/-!
# C57: the sequential overlapping Schwarz preconditioner

`apply` with the multiplicative mode visits the subdomains one after the other, computes the residual of the current iterate in the rows of the
subdomain, solves there and adds the relaxed correction; the symmetric mode does this forwards and then backwards; the additive mode solves all
subdomains for the same residual and adds the relaxed sum.
-/

namespace Istl
namespace Ovl
open Bcrs

variable {R K V : Type}

/-! ### The subdomains -/

/-- The row to domain mapping: domain `d` is the ascending list of the rows that mention `d`; the number of domains is the largest number mentioned
plus one. -/
theorem C57_domains_of_rows (r2d : List (List Nat)) :
    ∃ doms, domainsOfRows r2d = .ok doms ∧ (∀ D ∈ doms, D.Pairwise (· < ·)) ∧
      (∀ d row, row ∈ doms.getD d [] ↔ ∃ (h : row < r2d.length), d ∈ r2d[row]) ∧
      (∀ ds ∈ r2d, ∀ d ∈ ds, d < doms.length) ∧ (1 < doms.length → ∃ ds ∈ r2d, doms.length - 1 ∈ ds) := by
  obtain ⟨doms, h1, h2, h3, h4⟩ := domainsOfRows_spec r2d
  refine ⟨doms, h1, h3, h4, ?_, ?_⟩
  · intro ds hds d hd
    rw [h2, countDomains_eq]
    have := (foldl_max_le r2d.flatten 0).2 d (List.mem_flatten.2 ⟨ds, hds, hd⟩)
    omega
  · intro hl
    rw [h2, countDomains_eq] at hl ⊢
    rcases foldl_max_mem r2d.flatten 0 with h | h
    · omega
    · obtain ⟨ds, hds, hd⟩ := List.mem_flatten.1 h
      exact ⟨ds, hds, by simpa using hd⟩

/-- Both constructors make the same object when the subdomains agree. -/
theorem C57_constructors_agree (mk : SpMat R → List Nat → Res (Solver V)) (dyn : Bool) (A : SpMat R) (r2d doms : List (List Nat)) (relax : K) (fly : Bool)
    (h : domainsOfRows r2d = .ok doms) : ctorRows mk dyn A r2d relax fly = ctorDomains mk dyn A doms relax fly := by
  unfold ctorRows
  rw [h, Res.ok_bind]

/-! ### The subdomain matrices -/

/-- `copyToLocalMatrix`: the local matrix is the submatrix of the rows and columns in `D`, with the same pattern, and the second result is its
bandwidth. -/
theorem C57_local_matrix [Zero R] (A : SpMat R) (hA : A.WF) (D : List Nat) (hD : D.Pairwise (· < ·)) (hn : ∀ g ∈ D, g < A.n) :
    ∃ L w, copyToLocal A D = .ok (L, w) ∧ L.n = D.length ∧ L.m = D.length ∧ L.WF ∧
      (∀ i j (hi : i < D.length) (hj : j < D.length), (L.Has i j ↔ A.Has D[i] D[j]) ∧ L.entry i j = A.entry D[i] D[j]) ∧
      (∀ i j, L.Has i j → j ≤ i + w ∧ i ≤ j + w) ∧ (w ≠ 0 → ∃ i j, L.Has i j ∧ (j = i + w ∨ i = j + w)) := by
  have hg : ∀ g ∈ D, g < A.n ∧ (A.row g).Asc := fun g h => ⟨hn g h, (hA g (hn g h)).1⟩
  refine ⟨localMat A D, bandOf (localMat A D), copyToLocal_eq hD hg, rfl, rfl, localMat_wf hD (fun g h => (hg g h).2), ?_, ?_, ?_⟩
  · intro i j hi hj
    refine ⟨?_, localMat_entry hD hi hj (hg _ (List.getElem_mem hi)).2⟩
    rw [localMat_has hD hi hj]
    exact ⟨fun h => ⟨hn _ (List.getElem_mem hi), h⟩, fun h => h.2⟩
  · intro i j h
    have := bandOf_ge _ h
    omega
  · intro hw
    obtain ⟨i, j, h, e⟩ := bandOf_attained _ hw
    exact ⟨i, j, h, by omega⟩

/-- In memory: the local matrix is set up without an error, is ready to use, and its rows have exactly the columns of the local matrix. -/
theorem C57_local_matrix_memory (A : SpMat R) (hA : A.WF) (D : List Nat) (hD : D.Pairwise (· < ·)) (hn : ∀ g ∈ D, g < A.n) (h : Heap R) (bm : BuildMode)
    (hbm : bm ≠ .implicit) :
    ∃ s rows L w, localPattern A D ⟨h, empty bm⟩ = .ok () s ∧ s.o.ready = .built ∧ view s = .ok (D.length, D.length, rows) ∧ rows.length = D.length ∧
      copyToLocal A D = .ok (L, w) ∧ ∀ i (hi : i < rows.length), rows[i].map Prod.fst = (L.row i).map Prod.fst := by
  have hg : ∀ g ∈ D, g < A.n ∧ (A.row g).Asc := fun g h => ⟨hn g h, (hA g (hn g h)).1⟩
  have htodo : (D.mapM fun g => do let r ← rowOf A g; Res.ok (localCols D r)) = .ok (D.map fun g => localCols D (A.row g)) :=
    mapM_ok _ (fun g => localCols D (A.row g)) D fun g h => by rw [rowOf, if_pos (hg g h).1, Res.ok_bind]
  obtain ⟨s, h1, h2, ⟨rows, h3, h4, h5⟩, -⟩ := C04_rowwise_build_exact h (empty bm) D.length D.length 0 .rowWise (.inl rfl)
    (D.map fun g => localCols D (A.row g)) (by simp) (.inl rfl)
  refine ⟨s, rows, localMat A D, bandOf (localMat A D), ?_, h2, h3, h4, copyToLocal_eq hD hg, ?_⟩
  · unfold localPattern
    rw [htodo, Cmd.bind_def, Cmd.lift]
    simp only
    rw [MatMat.setup_eq _ h bm hbm (empty bm)]
    exact h1
  · intro i hi
    have hi' : i < D.length := h4 ▸ hi
    rw [h5 i hi (by simpa using hi'), List.map_map]
    simp only [List.getElem_map]
    rw [localMat_row A D hi', ← localCols_map]
    have ha := localRow'_asc (D := D) hD (hg _ (List.getElem_mem hi')).2
    unfold Row.Asc at ha
    rw [← localCols_map] at ha
    have e : (Prod.fst ∘ fun j => (j, h.dflt)) = (id : Nat → Nat) := rfl
    rw [e, List.map_id]
    have hp : ((localCols D (A.row D[i])).toFinset.sort).Perm (localCols D (A.row D[i])) := by
      refine (List.perm_ext_iff_of_nodup (Finset.sort_nodup _ _) (ha.imp (fun h => Nat.ne_of_lt h))).2 fun x => ?_
      simp
    exact hp.eq_of_pairwise (fun a b _ _ h h' => by omega) (Finset.pairwise_sort _ _) (ha.imp (fun h => Nat.le_of_lt h))

/-! ### `apply` -/

section
variable [AddCommGroup V] [SMul K V]

theorem ctor_obj {mk : SpMat R → List Nat → Res (Solver V)} {dyn : Bool} {A : SpMat R} {doms : List (List Nat)} {relax : K} {fly : Bool}
    {o : Obj R K V} (h : ctorDomains mk dyn A doms relax fly = .ok o) :
    o.mat = A ∧ o.domains = doms ∧ o.relax = relax ∧ o.maxlength = maxLength doms ∧ o.dyn = dyn ∧
      (o.solvers = none ∨ ∃ l, o.solvers = some l ∧ Stored mk A doms l) := by
  unfold ctorDomains at h
  simp only [Res.bind_eq_ok] at h
  obtain ⟨s, hs, h⟩ := h
  injection h with h
  subst h
  refine ⟨rfl, rfl, rfl, rfl, rfl, ?_⟩
  unfold assemble at hs
  cases fly with
  | true => left; injection hs with hs; exact hs.symm
  | false =>
    simp only [Bool.false_eq_true, if_false, Res.bind_eq_ok] at hs
    obtain ⟨l, hl, hs⟩ := hs
    injection hs with hs
    exact .inr ⟨l, hs.symm, mapM_forall₂ _ _ _ hl⟩

theorem stored_fwd {mk : SpMat R → List Nat → Res (Solver V)} {A : SpMat R} {doms : List (List Nat)} {o : Obj R K V} (hm : o.mat = A)
    (h : o.solvers = none ∨ ∃ l, o.solvers = some l ∧ Stored mk A doms l) : o.solvers = none ∨ Stored mk o.mat doms (o.solvers.getD []) := by
  subst hm
  rcases h with h | ⟨l, h, hs⟩
  · exact .inl h
  · right; rw [h]; exact hs

theorem stored_bwd {mk : SpMat R → List Nat → Res (Solver V)} {A : SpMat R} {doms : List (List Nat)} {o : Obj R K V} (hm : o.mat = A)
    (h : o.solvers = none ∨ ∃ l, o.solvers = some l ∧ Stored mk A doms l) :
    o.solvers = none ∨ Stored mk o.mat doms.reverse (o.solvers.getD []).reverse := by
  rcases stored_fwd hm h with h | h
  · exact .inl h
  · right; exact List.rel_reverse h

theorem applyDir_mult {mk : SpMat R → List Nat → Res (Solver V)} {act : R → V →+ V} {mode : Mode} (hm : mode ≠ .additive) {A : SpMat R}
    {doms : List (List Nat)} {P : List Nat → (Nat → V) → (Nat → V) → Prop} (hP : Answers mk A P) (hdoms : ∀ D ∈ doms, D.Pairwise (· < ·))
    {relax : K} (hw : relax • (0 : V) = 0) {dyn : Bool} (hdyn : dyn = true → ∀ v : V, relax • v = v) {fly : Bool} {o : Obj R K V}
    (ho : ctorDomains mk dyn A doms relax fly = .ok o) (fwd : Bool) (init x b y : Nat → V)
    (h : applyDir mk act mode o fwd init x b = .ok y) : Successive act A P relax b (if fwd then doms else doms.reverse) x y := by
  obtain ⟨rfl, rfl, rfl, e4, e5, e6⟩ := ctor_obj ho
  unfold applyDir at h
  simp only [Res.bind_eq_ok] at h
  obtain ⟨w, hl, h⟩ := h
  have hy : y = w.x := by
    cases mode with
    | additive => exact absurd rfl hm
    | multiplicative => injection h with h; exact h.symm
    | symmetric => injection h with h; exact h.symm
  subst hy
  cases fwd with
  | true => exact loop_mult mk act mode hm o (e5 ▸ hdyn) hw hP b _ _ _ _ hdoms (stored_fwd rfl e6) hl
  | false =>
    exact loop_mult mk act mode hm o (e5 ▸ hdyn) hw hP b _ _ _ _ (fun D h => hdoms D (List.mem_reverse.1 h)) (stored_bwd rfl e6) hl

/-- The multiplicative mode: one subdomain after the other. The dense subdomain solver is covered for relaxation factor one. -/
theorem C57_multiplicative (mk : SpMat R → List Nat → Res (Solver V)) (act : R → V →+ V) (A : SpMat R) (doms : List (List Nat))
    (hdoms : ∀ D ∈ doms, D.Pairwise (· < ·)) (P : List Nat → (Nat → V) → (Nat → V) → Prop) (hP : Answers mk A P) (relax : K)
    (hw : relax • (0 : V) = 0) (dyn : Bool) (hdyn : dyn = true → ∀ v : V, relax • v = v) (fly : Bool) (o : Obj R K V)
    (ho : ctorDomains mk dyn A doms relax fly = .ok o) (init x b y : Nat → V) (h : apply mk act .multiplicative o init x b = .ok y) :
    Successive act A P relax b doms x y := by
  unfold apply at h
  simp only [Res.bind_eq_ok] at h
  obtain ⟨z, h1, h⟩ := h
  injection h with h
  subst h
  exact applyDir_mult (by simp) hP hdoms hw hdyn ho true init x b _ h1

/-- The symmetric mode: the subdomains in their order and then in the opposite order. -/
theorem C57_symmetric (mk : SpMat R → List Nat → Res (Solver V)) (act : R → V →+ V) (A : SpMat R) (doms : List (List Nat))
    (hdoms : ∀ D ∈ doms, D.Pairwise (· < ·)) (P : List Nat → (Nat → V) → (Nat → V) → Prop) (hP : Answers mk A P) (relax : K)
    (hw : relax • (0 : V) = 0) (dyn : Bool) (hdyn : dyn = true → ∀ v : V, relax • v = v) (fly : Bool) (o : Obj R K V)
    (ho : ctorDomains mk dyn A doms relax fly = .ok o) (init x b y : Nat → V) (h : apply mk act .symmetric o init x b = .ok y) :
    Successive act A P relax b (doms ++ doms.reverse) x y := by
  unfold apply at h
  simp only [Res.bind_eq_ok] at h
  obtain ⟨z, h1, h⟩ := h
  exact (applyDir_mult (by simp) hP hdoms hw hdyn ho true init x b _ h1).append (applyDir_mult (by simp) hP hdoms hw hdyn ho false init z b _ h)

/-- The additive mode: all subdomains for the same residual. -/
theorem C57_additive (mk : SpMat R → List Nat → Res (Solver V)) (act : R → V →+ V) (A : SpMat R) (doms : List (List Nat))
    (hdoms : ∀ D ∈ doms, D.Pairwise (· < ·)) (P : List Nat → (Nat → V) → (Nat → V) → Prop) (hP : Answers mk A P) (relax : K)
    (dyn : Bool) (fly : Bool) (o : Obj R K V)
    (ho : ctorDomains mk dyn A doms relax fly = .ok o) (init x b y : Nat → V) (h : apply mk act .additive o init x b = .ok y) :
    Together act A P relax b doms x y := by
  obtain ⟨rfl, rfl, rfl, e4, e5, e6⟩ := ctor_obj ho
  unfold apply at h
  simp only [Res.bind_eq_ok] at h
  obtain ⟨z, h1, h⟩ := h
  injection h with h
  subst h
  unfold applyDir at h1
  simp only [Res.bind_eq_ok] at h1
  obtain ⟨w, hl, h⟩ := h1
  injection h with h
  subst h
  obtain ⟨g1, cs, g2, g3⟩ := loop_add mk act o hP b _ _ _ _ hdoms (stored_fwd rfl e6) hl
  refine ⟨cs, g2, ?_⟩
  funext g
  simp only [g1, g3, zero_add]
  rfl

/-- With subdomains inside the matrix and subdomain solvers that can be set up and return, the constructor and `apply` return: no access outside a
vector, no missing solver, for every mode, every right hand side and every start vector. -/
theorem C57_returns (mk : SpMat R → List Nat → Res (Solver V)) (act : R → V →+ V) (A : SpMat R) (doms : List (List Nat))
    (hn : ∀ D ∈ doms, (∀ g ∈ D, g < A.n) ∧ ∃ S, mk A D = .ok S ∧ ∀ l d, ∃ y, S l d = .ok y) (relax : K) (dyn fly : Bool) :
    ∃ o : Obj R K V, ctorDomains mk dyn A doms relax fly = .ok o ∧ ∀ mode init x b, ∃ y, apply mk act mode o init x b = .ok y := by
  have hc : ∃ o : Obj R K V, ctorDomains mk dyn A doms relax fly = .ok o := by
    unfold ctorDomains assemble
    cases fly with
    | true => exact ⟨_, rfl⟩
    | false =>
      have : ∃ l, doms.mapM (mk A) = .ok l := by
        have key : ∀ ds : List (List Nat), (∀ D ∈ ds, ∃ S, mk A D = .ok S) → ∃ l, ds.mapM (mk A) = .ok l := by
          intro ds
          induction ds with
          | nil => intro _; exact ⟨[], rfl⟩
          | cons D ds ih =>
            intro h
            obtain ⟨S, hS⟩ := h D (by simp)
            obtain ⟨l, hl⟩ := ih (fun D' h' => h D' (by simp [h']))
            exact ⟨S :: l, by rw [List.mapM_cons, hS, Res.ok_bind, hl, Res.ok_bind]; rfl⟩
        exact key doms fun D h => let ⟨_, S, hS, _⟩ := hn D h; ⟨S, hS⟩
      obtain ⟨l, hl⟩ := this
      exact ⟨⟨A, doms, relax, maxLength doms, some l, dyn⟩, by simp only [Bool.false_eq_true, if_false, hl, Res.ok_bind]⟩
  obtain ⟨o, ho⟩ := hc
  refine ⟨o, ho, ?_⟩
  obtain ⟨rfl, rfl, rfl, e4, e5, e6⟩ := ctor_obj ho
  have hdir : ∀ mode fwd init x b, ∃ y, applyDir mk act mode o fwd init x b = .ok y := by
    intro mode fwd init x b
    have hl : ∃ w, domainLoop mk act mode o b (if fwd then o.domains else o.domains.reverse)
        (if fwd then o.solvers.getD [] else (o.solvers.getD []).reverse) ⟨x, 0, init, init⟩ = .ok w := by
      cases fwd with
      | true =>
        exact loop_total mk act mode o b _ _ _ (fun D h => ⟨by rw [e4]; exact maxLength_ge _ h, hn D h⟩) (stored_fwd rfl e6)
      | false =>
        exact loop_total mk act mode o b _ _ _ (fun D h => ⟨by rw [e4]; exact maxLength_ge _ (List.mem_reverse.1 h), hn D (List.mem_reverse.1 h)⟩)
          (stored_bwd rfl e6)
    obtain ⟨w, hw⟩ := hl
    unfold applyDir
    simp only [hw, Res.ok_bind]
    cases mode <;> exact ⟨_, rfl⟩
  intro mode init x b
  obtain ⟨y, hy⟩ := hdir mode true init x b
  unfold apply
  rw [hy, Res.ok_bind]
  cases mode with
  | additive => exact ⟨_, rfl⟩
  | multiplicative => exact ⟨_, rfl⟩
  | symmetric => exact hdir .symmetric false init y b

theorem loop_fly (mk : SpMat R → List Nat → Res (Solver V)) (act : R → V →+ V) (mode : Mode) (o o' : Obj R K V)
    (h1 : o'.mat = o.mat) (h3 : o'.relax = o.relax) (h4 : o'.maxlength = o.maxlength) (h5 : o'.dyn = o.dyn)
    (hf : o'.solvers = none) (b : Nat → V) : ∀ (doms : List (List Nat)) (ss ss' : List (Solver V)) (w : Work V), Stored mk o.mat doms ss →
    domainLoop mk act mode o' b doms ss' w = domainLoop mk act mode o b doms ss w := by
  have ha : ∀ (D : List Nat) (i : Nat) (w : Work V), assign act o' b i D w = assign act o b i D w := by
    intro D
    induction D with
    | nil => intro i w; rfl
    | cons g gs ih => intro i w; simp only [assign, h1, h4, h5, ih]
  have hadd : ∀ (D : List Nat) (i : Nat) (w : Work V), add mode o' i D w = add mode o i D w := by
    intro D
    induction D with
    | nil => intro i w; rfl
    | cons g gs ih => intro i w; cases mode <;> simp only [add, relaxResult, h1, h3, h4, h5, ih]
  intro doms
  induction doms with
  | nil => intro ss ss' w _; rfl
  | cons D doms ih =>
    intro ss ss' w hs
    cases hs with
    | @cons _ S _ l q qs =>
      simp only [domainLoop, ha, hadd]
      have e1 : ∀ S', solverFor mk o' D S' = .ok S := fun S' => by unfold solverFor; rw [hf]; simp only [h1]; exact q
      have e2 : solverFor mk o D (some S) = .ok S := by
        unfold solverFor
        cases o.solvers with
        | none => exact q
        | some l => rfl
      rw [List.head?_cons]
      simp only [e1, e2, Res.ok_bind, List.tail_cons]
      simp only [ih _ ss'.tail _ qs]

/-- Solving the subdomain problems on the fly gives the same results as setting them up once. -/
theorem C57_on_the_fly (mk : SpMat R → List Nat → Res (Solver V)) (act : R → V →+ V) (A : SpMat R) (doms : List (List Nat)) (relax : K) (dyn : Bool)
    (o o' : Obj R K V) (ho : ctorDomains mk dyn A doms relax false = .ok o) (ho' : ctorDomains mk dyn A doms relax true = .ok o') (mode : Mode)
    (init x b : Nat → V) : apply mk act mode o' init x b = apply mk act mode o init x b := by
  obtain ⟨a1, a2, a3, a4, a5, a6⟩ := ctor_obj ho
  obtain ⟨b1, b2, b3, b4, b5, -⟩ := ctor_obj ho'
  have hf : o'.solvers = none := by
    unfold ctorDomains assemble at ho'
    injection ho' with ho'
    subst ho'; rfl
  have hst : ∃ l, o.solvers = some l ∧ Stored mk A doms l := by
    rcases a6 with h | h
    · unfold ctorDomains assemble at ho
      simp only [Bool.false_eq_true, if_false, Res.bind_eq_ok] at ho
      obtain ⟨s, ⟨l, -, hl⟩, ho⟩ := ho
      injection ho with ho
      subst ho
      injection hl with hl
      subst hl
      cases h
    · exact h
  obtain ⟨l, hl, hs⟩ := hst
  have hdir : ∀ fwd x, applyDir mk act mode o' fwd init x b = applyDir mk act mode o fwd init x b := by
    intro fwd x
    unfold applyDir
    rw [b2, a2, hl, hf]
    have hloop := loop_fly mk act mode o o' (by rw [a1, b1]) (by rw [a3, b3]) (by rw [a4, b4]) (by rw [a5, b5]) hf b
    cases fwd with
    | true => simp only [if_true]; rw [hloop doms l _ _ (by rw [a1]; exact hs), b3, a3]; rfl
    | false =>
      simp only [Bool.false_eq_true, if_false]
      rw [hloop doms.reverse l.reverse _ _ (by rw [a1]; exact List.rel_reverse hs), b3, a3]; rfl
  unfold apply
  simp only [hdir]

end

/-! ### The subdomain solvers -/

/-- The dense subdomain solver solves exactly. -/
theorem C57_dense_exact [Zero R] [AddCommGroup V] (act : R → V →+ V) (h0 : act 0 = 0) (A : SpMat R) (hA : A.WF) (ds : DenseSolve act) :
    Answers (denseSolver ds.solve) A (SolvesOn act A) := dense_answers act h0 A hA ds

/-- The ILU(0) subdomain solver solves exactly when the elimination of the subdomain creates no fill-in. -/
theorem C57_ilu0_exact [Ring R] [AddCommGroup V] [Module R V] (I : BlockInv R) (A : SpMat R) (hA : A.WF) :
    Answers (V := V) (ilu0Solver I) A (fun D r c => NoFill A D → SolvesOn Ilu.act A D r c) := ilu0_answers I A hA

/-- So does the ILU(n) subdomain solver. -/
theorem C57_ilun_exact [Ring R] [AddCommGroup V] [Module R V] (I : BlockInv R) (A : SpMat R) (hA : A.WF) :
    Answers (V := V) (ilunSolver I) A (fun D r c => DiagOn A D → NoFill A D → SolvesOn Ilu.act A D r c) := ilun_answers I A hA

/-! ### Cases -/

/-- Numbers acting on numbers. -/
def numAct : ℚ → ℚ →+ ℚ := fun a => AddMonoidHom.mulLeft a

/-- A dense solver that knows one matrix. -/
def demoDense : DenseSolve numAct where
  solve M d := if M = [[2, 1], [1, 1]] then .ok (fun k => if k = 0 then d 0 - d 1 else 2 * d 1 - d 0) else .throw .matrixBlockError
  sound := by
    intro M d y h i hi
    split at h
    · rename_i e
      subst e
      injection h with h
      subst h
      simp only [List.length_cons, List.length_nil] at hi
      have : i = 0 ∨ i = 1 := by omega
      rcases this with rfl | rfl
      · simp [numAct, List.range_succ]; ring
      · simp [numAct, List.range_succ]; ring
    · cases h

/-- A matrix with three rows; rows 1 and 2 (and rows 0 and 1) form the block `[[2,1],[1,1]]`. -/
def demo3 : SpMat ℚ :=
  { n := 3, m := 3, row := fun i => if i = 0 then [(0, 2), (1, 1)] else if i = 1 then [(0, 1), (1, 1)] else [(1, 1), (2, 5)] }

/-- The first components of a result. -/
def firstOf (n : Nat) (r : Res (Nat → ℚ)) : Option (List ℚ) := match r with | .ok y => some ((List.range n).map y) | _ => none

/-- `ctorDomains`, then `apply`. -/
def demoRun (mk : SpMat ℚ → List Nat → Res (Solver ℚ)) (dyn : Bool) (A : SpMat ℚ) (doms : List (List Nat)) (w : ℚ) (fly : Bool) (mode : Mode)
    (b : Nat → ℚ) : Res (Nat → ℚ) := do
  let o ← ctorDomains mk dyn A doms w fly
  apply mk numAct mode o (fun _ => 77) 0 b

/-- Non-vacuity: the dense solver on subdomain `{0,1}`, in all modes. -/
example : firstOf 3 (demoRun (denseSolver demoDense.solve) true demo3 [[0, 1]] 1 true .multiplicative (fun i => i + 1)) = some [-1, 3, 0] := by decide +kernel
example : firstOf 3 (demoRun (denseSolver demoDense.solve) true demo3 [[0, 1]] (1 / 2) true .additive (fun i => i + 1)) = some [-1 / 2, 3 / 2, 0] := by
  decide +kernel
/-- Non-vacuity: ILU(0) on two overlapping subdomains of a tridiagonal matrix, stored and on the fly. -/
example : let b : Nat → ℚ := fun i => i + 1
    firstOf 3 (demoRun (ilu0Solver numInv) false demo3 [[0, 1], [1, 2]] 1 false .multiplicative b) = some [-1, 3, 0] ∧
    firstOf 3 (demoRun (ilu0Solver numInv) false demo3 [[0, 1], [1, 2]] 1 true .symmetric b) =
      firstOf 3 (demoRun (ilu0Solver numInv) false demo3 [[0, 1], [1, 2]] 1 false .symmetric b) := by decide +kernel
example : NoFill demo3 [0, 1] ∧ DiagOn demo3 [0, 1] ∧ demo3.WF := by
  refine ⟨?_, ?_, ?_⟩
  · intro g hg h hh k hk h1 h2 _ _
    have : g = 1 := by simp at hg hk; omega
    have : h = 1 := by simp at hh hk; omega
    subst g; subst h
    exact ⟨by decide, 1, by decide⟩
  · intro g hg
    have : g = 0 ∨ g = 1 := by simpa using hg
    rcases this with rfl | rfl
    · exact ⟨by decide, 2, by decide⟩
    · exact ⟨by decide, 1, by decide⟩
  · intro i hi
    have : i = 0 ∨ i = 1 ∨ i = 2 := by simp [demo3] at hi; omega
    rcases this with rfl | rfl | rfl <;> exact ⟨by simp [demo3, Row.Asc], by decide⟩
/-- Non-vacuity: three rows in two domains; row 1 is in both. -/
example : domainsOfRows [[0], [1, 0], [1]] = .ok [[0, 1], [1, 2]] := by decide +kernel

/-- A list of all vectors with the given first components and zeros after them. -/
def vec (l : List ℚ) : Nat → ℚ := fun i => l.getD i 0

/-- With the dense subdomain solver and a relaxation factor other than one the multiplicative mode is not what the documentation says: the second row of
the subdomain is relaxed twice. -/
theorem C57_dense_relaxation_counterexample :
    ∃ o y, ctorDomains (denseSolver demoDense.solve) true demo3 [[0, 1]] (1 / 2 : ℚ) true = .ok o ∧
      apply (denseSolver demoDense.solve) numAct .multiplicative o 0 0 (vec [1, 2, 3]) = .ok y ∧ (y 0 = -1 / 2 ∧ y 1 = 3 / 4) ∧
      ¬ Successive numAct demo3 (SolvesOn numAct demo3) (1 / 2 : ℚ) (vec [1, 2, 3]) [[0, 1]] 0 y := by
  have h1 : ∃ o, ctorDomains (denseSolver demoDense.solve) true demo3 [[0, 1]] (1 / 2 : ℚ) true = .ok o := ⟨_, rfl⟩
  obtain ⟨o, ho⟩ := h1
  have hrun : ((ctorDomains (denseSolver demoDense.solve) true demo3 [[0, 1]] (1 / 2 : ℚ) true >>= fun o =>
      apply (denseSolver demoDense.solve) numAct .multiplicative o 0 0 (vec [1, 2, 3])) >>= fun y => Res.ok (y 0, y 1)) = .ok (-1 / 2, 3 / 4) := by
    decide +kernel
  rw [ho, Res.ok_bind] at hrun
  simp only [Res.bind_eq_ok] at hrun
  obtain ⟨y, hy, h⟩ := hrun
  injection h with h
  simp only [Prod.mk.injEq] at h
  refine ⟨o, y, ho, hy, h, ?_⟩
  intro hs
  cases hs with
  | cons hc hs =>
    rename_i c
    cases hs
    have e0 := hc.eqn 0 (by simp)
    have e1 := hc.eqn 1 (by simp)
    simp only [SpMat.apply, SpMat.partSum, demo3, resid, numAct, vec] at e0 e1
    simp at e0 e1
    have h2 := h.2
    simp at h2
    have : c 1 = 3 := by linarith
    rw [this] at h2
    norm_num at h2

/-- A symmetric 4x4 matrix: the row of the middle unknown 0, two neighbours 1 and 2, and 3 behind 1. -/
def demo4 : SpMat ℚ :=
  { n := 4, m := 4, row := fun i => if i = 0 then [(0, 4), (1, 1), (2, 1)] else if i = 1 then [(0, 1), (1, 4), (3, 1)]
      else if i = 2 then [(0, 1), (2, 4)] else [(1, 1), (3, 4)] }

/-- The ILU(n) subdomain solver, documented as exact, is not: half the bandwidth is not enough fill-in for every pattern. -/
theorem C57_ilun_counterexample :
    demo4.WF ∧ ¬ Answers (V := ℚ) (ilunSolver numInv) demo4 (SolvesOn numAct demo4) := by
  refine ⟨?_, ?_⟩
  · intro i hi
    have : i = 0 ∨ i = 1 ∨ i = 2 ∨ i = 3 := by simp [demo4] at hi; omega
    rcases this with rfl | rfl | rfl | rfl <;> exact ⟨by simp [demo4, Row.Asc], by decide⟩
  · intro h
    have hrun : ((ilunSolver numInv demo4 [0, 1, 2, 3] >>= fun S => S 0 (vec [0, 0, 1, 0])) >>= fun l =>
        Res.ok (decide (demo4.apply numAct (spread [0, 1, 2, 3] l) 3 = 0))) = .ok false := by decide +kernel
    simp only [Res.bind_eq_ok] at hrun
    obtain ⟨l, ⟨S, hS, hl⟩, hd⟩ := hrun
    have := (h [0, 1, 2, 3] S (by decide) (by decide) hS 0 (vec [0, 0, 1, 0]) (vec [0, 0, 1, 0]) l (by decide) hl).eqn 3 (by simp)
    injection hd with hd
    have := of_decide_eq_false hd
    contradiction

end Ovl
end Istl
