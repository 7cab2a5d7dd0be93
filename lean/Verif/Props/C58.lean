import Verif.Props.C57
import Verif.Lemmas.OvlEnergy

/-!
# C58: the overlapping Schwarz preconditioner converges for symmetric positive definite matrices

With exact subdomain solvers: `apply` never increases the energy of the error, decreases it strictly when the subdomains cover all rows, leaves the exact
solution alone, and the symmetric and the additive mode are symmetric positive definite operators (what the conjugate gradient method needs).
-/

namespace Istl
namespace Ovl

variable {K V R : Type} [Field K] [LinearOrder K] [IsStrictOrderedRing K] [AddCommGroup V] [Module K V] {B : V → V → K}

/-- A preconditioner object with exact subdomain solvers: subdomains inside the matrix, stored or on the fly, and relaxation factor one in the
(symmetric) multiplicative mode of the dense version. -/
structure ExactSchwarz (act : R → V →+ V) (mk : SpMat R → List Nat → Res (Solver V)) (A : SpMat R) (doms : List (List Nat)) (w : K) (o : Obj R K V) : Prop where
  asc : ∀ D ∈ doms, D.Pairwise (· < ·)
  inside : ∀ D ∈ doms, ∀ g ∈ D, g < A.n
  exact : Answers mk A (SolvesOn act A)
  made : ∃ dyn fly, (dyn = true → w = 1) ∧ ctorDomains mk dyn A doms w fly = .ok o

/-- Every row belongs to a subdomain. -/
def Covers (A : SpMat R) (doms : List (List Nat)) : Prop := ∀ i, i < A.n → ∃ D ∈ doms, i ∈ D

section
variable {act : R → V →+ V} {mk : SpMat R → List Nat → Res (Solver V)} {A : SpMat R} {doms : List (List Nat)} {w : K} {o : Obj R K V}

theorem ExactSchwarz.mult (h : ExactSchwarz act mk A doms w o) {init x b y : Nat → V} (hy : apply mk act .multiplicative o init x b = .ok y) :
    Successive act A (SolvesOn act A) w b doms x y := by
  obtain ⟨dyn, fly, hd, ho⟩ := h.made
  exact C57_multiplicative mk act A doms h.asc _ h.exact w (smul_zero w) dyn (fun e v => by rw [hd e, one_smul]) fly o ho init x b y hy

theorem ExactSchwarz.sym (h : ExactSchwarz act mk A doms w o) {init x b y : Nat → V} (hy : apply mk act .symmetric o init x b = .ok y) :
    ∃ z, Successive act A (SolvesOn act A) w b doms x z ∧ Successive act A (SolvesOn act A) w b doms.reverse z y := by
  obtain ⟨dyn, fly, hd, ho⟩ := h.made
  unfold apply at hy
  simp only [Res.bind_eq_ok] at hy
  obtain ⟨z, h1, hy⟩ := hy
  exact ⟨z, applyDir_mult (by simp) h.exact h.asc (smul_zero w) (fun e v => by rw [hd e, one_smul]) ho true init x b _ h1,
    applyDir_mult (by simp) h.exact h.asc (smul_zero w) (fun e v => by rw [hd e, one_smul]) ho false init z b _ hy⟩

theorem ExactSchwarz.add (h : ExactSchwarz act mk A doms w o) {init x b y : Nat → V} (hy : apply mk act .additive o init x b = .ok y) :
    Together act A (SolvesOn act A) w b doms x y := by
  obtain ⟨dyn, fly, hd, ho⟩ := h.made
  exact C57_additive mk act A doms h.asc _ h.exact w dyn fly o ho init x b y hy

variable (hB : ScalarProd B) (hact : ∀ a (c : K) x, act a (c • x) = c • act a x)
include hB hact

/-- The multiplicative and the symmetric mode never raise the quadratic functional, and lower it if the residual does not vanish in some row of a
subdomain; relaxation factor between 0 and 2. -/
theorem C58_lowers_functional (h : ExactSchwarz act mk A doms w o) (hA : A.Symmetric B act) (hP : A.PosDef B act) (h0 : 0 < w) (h2 : w < 2) (mode : Mode)
    (hm : mode ≠ .additive) (init x b y : Nat → V) (hy : apply mk act mode o init x b = .ok y) :
    A.functional B act b y ≤ A.functional B act b x ∧
      ((∃ D ∈ doms, ∃ g ∈ D, A.apply act x g ≠ b g) → A.functional B act b y < A.functional B act b x) := by
  have main : A.functional B act b y ≤ A.functional B act b x ∧
      (A.functional B act b y = A.functional B act b x → ∀ D ∈ doms, ∀ g ∈ D, A.apply act x g = b g) := by
    cases mode with
    | additive => exact absurd rfl hm
    | multiplicative =>
      obtain ⟨h3, h4⟩ := successive_functional hB act hact A hA hP h0 h2 b (h.mult hy) h.inside
      exact ⟨h3, fun e => (h4 e).2⟩
    | symmetric =>
      obtain ⟨z, s1, s2⟩ := h.sym hy
      obtain ⟨h3, h4⟩ := successive_functional hB act hact A hA hP h0 h2 b s1 h.inside
      obtain ⟨h5, -⟩ := successive_functional hB act hact A hA hP h0 h2 b s2 (fun D hD => h.inside D (List.mem_reverse.1 hD))
      exact ⟨le_trans h5 h3, fun e => (h4 (le_antisymm h3 (e ▸ h5))).2⟩
  refine ⟨main.1, fun ⟨D, hD, g, hg, hne⟩ => lt_of_le_of_ne main.1 fun e => hne (main.2 e D hD g hg)⟩

/-- If the subdomains cover all rows, the multiplicative and the symmetric mode bring every vector that is not the solution strictly closer to the solution
`z`, measured in energy. -/
theorem C58_lowers_energy (h : ExactSchwarz act mk A doms w o) (hcov : Covers A doms) (hA : A.Symmetric B act) (hP : A.PosDef B act) (h0 : 0 < w)
    (h2 : w < 2) (mode : Mode) (hm : mode ≠ .additive) (init x b y z : Nat → V) (hz : ∀ i, i < A.n → A.apply act z i = b i)
    (hne : ∃ i, i < A.n ∧ x i ≠ z i) (hy : apply mk act mode o init x b = .ok y) : A.energy B act (z - y) < A.energy B act (z - x) := by
  rw [energy_functional hB act hact A hA b z y hz, energy_functional hB act hact A hA b z x hz]
  refine add_lt_add_left ((C58_lowers_functional hB hact h hA hP h0 h2 mode hm init x b y hy).2 ?_) _
  by_contra hc
  push Not at hc
  obtain ⟨i, hi, hne⟩ := hne
  have := hP (z - x) ⟨i, hi, fun h => hne (sub_eq_zero.1 h).symm⟩
  have hD := blockDot_scalarProd hB A.n
  rw [blockDot_congr (x' := 0) (y' := z - x) (fun i hi => ?_) (fun _ _ => rfl), hD.zero] at this
  · exact lt_irrefl _ this
  · obtain ⟨D, hD, hiD⟩ := hcov i hi
    have e := apply_add act A (z - x) x
    rw [sub_add_cancel] at e
    have e' := congrFun e i
    rw [hz i hi, Pi.add_apply, hc D hD i hiD] at e'
    exact (add_eq_right.1 e'.symm)

/-- The additive mode lowers the energy of the error if the relaxation factor is below two divided by the number of subdomains. -/
theorem C58_additive_lowers_energy (h : ExactSchwarz act mk A doms w o) (hcov : Covers A doms) (hA : A.Symmetric B act) (hP : A.PosDef B act)
    (h0 : 0 < w) (h2 : w * doms.length < 2) (init x b y z : Nat → V) (hz : ∀ i, i < A.n → A.apply act z i = b i)
    (hne : ∃ i, i < A.n ∧ x i ≠ z i) (hy : apply mk act .additive o init x b = .ok y) : A.energy B act (z - y) < A.energy B act (z - x) := by
  have hD := blockDot_scalarProd hB A.n
  rw [energy_functional hB act hact A hA b z y hz, energy_functional hB act hact A hA b z x hz]
  refine add_lt_add_left ?_ _
  obtain ⟨cs, hcs, rfl⟩ := h.add hy
  have hnn : ∀ c, 0 ≤ A.energy B act c := by
    intro c
    by_cases hc : ∃ i, i < A.n ∧ c i ≠ 0
    · exact le_of_lt (hP c hc)
    · push Not at hc
      unfold SpMat.energy
      rw [hD.symm, blockDot_congr (x' := 0) (fun i hi => hc i hi) (fun _ _ => rfl), hD.zero]
  have hlen := hcs.length_eq
  have key : ∀ (ds : List (List Nat)) (cs : List (Nat → V)), List.Forall₂ (fun D c => SolvesOn act A D (resid act A b x) c) ds cs →
      blockDot B A.n (resid act A b x) cs.sum = (cs.map (A.energy B act)).sum := by
    intro ds cs hcs
    induction hcs with
    | nil => simp only [List.sum_nil, List.map_nil]; rw [hD.symm, hD.zero]
    | cons hc _ ih =>
      simp only [List.sum_cons, List.map_cons, hD.add', ih]
      rw [← dot_supp hB hc.supp hc.eqn A.n]; rfl
  have hT := key doms cs hcs
  have hpos : 0 < (cs.map (A.energy B act)).sum := by
    refine lt_of_le_of_ne (List.sum_nonneg (by intro a ha; obtain ⟨c, -, rfl⟩ := List.mem_map.1 ha; exact hnn c)) ?_
    intro e0
    have hz0 : ∀ c ∈ cs, ∀ i, i < A.n → c i = 0 := by
      intro c hc
      have hall : ∀ a ∈ cs.map (A.energy B act), (0 : K) ≤ a := by intro a ha; obtain ⟨c, -, rfl⟩ := List.mem_map.1 ha; exact hnn c
      have := List.single_le_sum hall _ (List.mem_map_of_mem (f := A.energy B act) hc)
      by_contra hc'
      push Not at hc'
      obtain ⟨i, hi, hci⟩ := hc'
      have := hP c ⟨i, hi, hci⟩
      unfold SpMat.energy at *
      linarith
    obtain ⟨i, hi, hne⟩ := hne
    have := hP (z - x) ⟨i, hi, fun h => hne (sub_eq_zero.1 h).symm⟩
    rw [blockDot_congr (x' := 0) (y' := z - x) (fun i hi => ?_) (fun _ _ => rfl), hD.zero] at this
    · exact lt_irrefl _ this
    · obtain ⟨D, hDm, hiD⟩ := hcov i hi
      obtain ⟨k, hk, rfl⟩ := List.mem_iff_getElem.1 hDm
      have hk' : k < cs.length := by omega
      have hsol : SolvesOn act A doms[k] (resid act A b x) cs[k] := (List.forall₂_iff_get.1 hcs).2 k hk hk'
      have hc0 : cs[k] = 0 := by
        funext g
        by_cases hg : g ∈ doms[k]
        · exact hz0 _ (List.getElem_mem hk') g (h.inside _ (List.getElem_mem hk) g hg)
        · exact hsol.supp g hg
      have e := hsol.eqn i hiD
      rw [hc0] at e
      have zz : A.apply act (0 : Nat → V) i = 0 := by simp [SpMat.apply, SpMat.partSum]
      rw [zz] at e
      have e1 := congrFun (apply_add act A (z - x) x) i
      rw [sub_add_cancel, hz i hi, Pi.add_apply] at e1
      simp only [resid] at e
      rw [e1] at e
      simpa using e.symm
  have hS := sum_energy hB act A hA hnn cs
  have hr : blockDot B A.n (resid act A b x) cs.sum = blockDot B A.n b cs.sum - blockDot B A.n (A.apply act x) cs.sum := by rw [← hD.sub]; rfl
  have hx : blockDot B A.n (A.apply act cs.sum) x = blockDot B A.n (A.apply act x) cs.sum := by rw [hA, hD.symm]
  have e : A.functional B act b (x + w • cs.sum) = A.functional B act b x - 2 * w * (cs.map (A.energy B act)).sum + w * w * A.energy B act cs.sum := by
    rw [← hT, hr]
    unfold SpMat.functional SpMat.energy
    rw [apply_lin hB act hact]
    simp only [hD.add, hD.add', hD.smul, hD.smul']
    rw [hx]
    ring
  rw [e]
  have h3 : w * w * A.energy B act cs.sum ≤ w * w * (cs.length * (cs.map (A.energy B act)).sum) :=
    mul_le_mul_of_nonneg_left hS (le_of_lt (mul_pos h0 h0))
  rw [← hlen] at h3
  have h4 : w * w * (doms.length * (cs.map (A.energy B act)).sum) < 2 * w * (cs.map (A.energy B act)).sum := by
    have : w * w * (doms.length * (cs.map (A.energy B act)).sum) = (w * doms.length) * (w * (cs.map (A.energy B act)).sum) := by ring
    rw [this, mul_assoc 2 w]
    exact mul_lt_mul_of_pos_right h2 (mul_pos h0 hpos)
  linarith

omit hact in
/-- A vector that satisfies the equations of all rows in subdomains is not changed, in any mode. -/
theorem C58_fixed_point (h : ExactSchwarz act mk A doms w o) (hP : A.PosDef B act) (mode : Mode) (init x b y : Nat → V)
    (hx : ∀ D ∈ doms, ∀ g ∈ D, A.apply act x g = b g) (hy : apply mk act mode o init x b = .ok y) : y = x := by
  cases mode with
  | multiplicative => exact successive_fixed hB act A hP (h.mult hy) h.inside hx
  | symmetric =>
    obtain ⟨z, s1, s2⟩ := h.sym hy
    have e := successive_fixed hB act A hP s1 h.inside hx
    subst e
    exact successive_fixed hB act A hP s2 (fun D hD => h.inside D (List.mem_reverse.1 hD)) (fun D hD => hx D (List.mem_reverse.1 hD))
  | additive =>
    obtain ⟨cs, hcs, rfl⟩ := h.add hy
    have hz : ∀ c ∈ cs, c = 0 := by
      intro c hc
      obtain ⟨k, hk, rfl⟩ := List.mem_iff_getElem.1 hc
      have hk' : k < doms.length := by rw [hcs.length_eq]; exact hk
      exact solvesOn_zero hB act A hP (h.inside _ (List.getElem_mem hk')) ((List.forall₂_iff_get.1 hcs).2 k hk' hk)
        (fun g hg => by simp only [resid, hx _ (List.getElem_mem hk') g hg, sub_self])
    rw [List.sum_eq_zero hz, smul_zero, add_zero]

/-- The symmetric mode is a symmetric operator: `y^T b' = b^T y'`. -/
theorem C58_symmetric_mode_symmetric (h : ExactSchwarz act mk A doms w o) (hA : A.Symmetric B act) (init b b' y y' : Nat → V)
    (hy : apply mk act .symmetric o init 0 b = .ok y) (hy' : apply mk act .symmetric o init 0 b' = .ok y') :
    blockDot B A.n y b' = blockDot B A.n b y' := by
  have s : ∀ {b y}, apply mk act .symmetric o init 0 b = .ok y → Successive act A (SolvesOn act A) w b (doms ++ doms.reverse) 0 y := by
    intro b y hy
    obtain ⟨z, s1, s2⟩ := h.sym hy
    exact s1.append s2
  have := successive_adjoint hB act hact A hA (doms ++ doms.reverse) b 0 y b' y' (s hy) (by
    rw [List.reverse_append, List.reverse_reverse]; exact s hy')
  rw [sub_zero] at this
  rw [this]
  congr 1
  funext g
  simp [resid, SpMat.apply, SpMat.partSum]

/-- It is positive definite if the subdomains cover all rows: `b^T y > 0`. -/
theorem C58_symmetric_mode_positive (h : ExactSchwarz act mk A doms w o) (hcov : Covers A doms) (hA : A.Symmetric B act) (hP : A.PosDef B act)
    (h0 : 0 < w) (h2 : w < 2) (init b y : Nat → V) (hb : ∃ i, i < A.n ∧ b i ≠ 0) (hy : apply mk act .symmetric o init 0 b = .ok y) :
    0 < blockDot B A.n b y := by
  have hD := blockDot_scalarProd hB A.n
  obtain ⟨z, s1, s2⟩ := h.sym hy
  have zz : ∀ g, A.apply act (0 : Nat → V) g = 0 := fun g => by simp [SpMat.apply, SpMat.partSum]
  have e := successive_adjoint hB act hact A hA doms.reverse b z y b z s2 (by rw [List.reverse_reverse]; exact s1)
  have e2 : blockDot B A.n (resid act A b z) z = blockDot B A.n b z - blockDot B A.n (A.apply act z) z := by rw [← hD.sub]; rfl
  rw [hD.sub, e2, hD.symm y, hD.symm z b] at e
  obtain ⟨h3, h4⟩ := successive_functional hB act hact A hA hP h0 h2 b s1 h.inside
  have hne : A.functional B act b z ≠ A.functional B act b 0 := by
    intro he
    obtain ⟨i, hi, hbi⟩ := hb
    obtain ⟨D, hDm, hiD⟩ := hcov i hi
    have := (h4 he).2 D hDm i hiD
    rw [zz] at this
    exact hbi this.symm
  have hlt := lt_of_le_of_ne h3 hne
  have hJ0 : A.functional B act b 0 = 0 := by
    unfold SpMat.functional
    rw [hD.symm, hD.zero, hD.symm, hD.zero]; ring
  rw [hJ0] at hlt
  unfold SpMat.functional at hlt
  linarith

omit hact in
/-- The additive mode is a symmetric operator. -/
theorem C58_additive_mode_symmetric (h : ExactSchwarz act mk A doms w o) (hA : A.Symmetric B act) (init b b' y y' : Nat → V)
    (hy : apply mk act .additive o init 0 b = .ok y) (hy' : apply mk act .additive o init 0 b' = .ok y') :
    blockDot B A.n y b' = blockDot B A.n b y' := by
  have hD := blockDot_scalarProd hB A.n
  have r0 : ∀ b : Nat → V, resid act A b 0 = b := fun b => by funext g; simp [resid, SpMat.apply, SpMat.partSum]
  obtain ⟨cs, hcs, rfl⟩ := h.add hy
  obtain ⟨cs', hcs', rfl⟩ := h.add hy'
  rw [r0] at hcs hcs'
  rw [zero_add, zero_add, hD.smul, hD.smul']
  congr 1
  have key : ∀ (ds : List (List Nat)) (cs cs' : List (Nat → V)), List.Forall₂ (fun D c => SolvesOn act A D b c) ds cs →
      List.Forall₂ (fun D c => SolvesOn act A D b' c) ds cs' → blockDot B A.n cs.sum b' = blockDot B A.n b cs'.sum := by
    intro ds cs cs' h1
    induction h1 generalizing cs' with
    | nil => intro h2; cases h2; simp only [List.sum_nil]; rw [hD.zero, hD.symm, hD.zero]
    | cons hc _ ih =>
      intro h2
      cases h2 with
      | cons hc' h2 =>
        simp only [List.sum_cons, hD.add, hD.add']
        rw [ih _ h2, solvesOn_symm hB act A hA hc hc']
  exact key doms cs cs' hcs hcs'

omit hact in
/-- It is positive definite if the subdomains cover all rows. -/
theorem C58_additive_mode_positive (h : ExactSchwarz act mk A doms w o) (hcov : Covers A doms) (hP : A.PosDef B act)
    (h0 : 0 < w) (init b y : Nat → V) (hb : ∃ i, i < A.n ∧ b i ≠ 0) (hy : apply mk act .additive o init 0 b = .ok y) :
    0 < blockDot B A.n b y := by
  have hD := blockDot_scalarProd hB A.n
  have r0 : ∀ b : Nat → V, resid act A b 0 = b := fun b => by funext g; simp [resid, SpMat.apply, SpMat.partSum]
  obtain ⟨cs, hcs, rfl⟩ := h.add hy
  rw [r0] at hcs
  rw [zero_add, hD.smul']
  refine mul_pos h0 ?_
  have hnn : ∀ D c, SolvesOn act A D b c → 0 ≤ blockDot B A.n b c ∧ ((∃ i, i < A.n ∧ c i ≠ 0) → 0 < blockDot B A.n b c) := by
    intro D c hc
    rw [← dot_supp hB hc.supp hc.eqn A.n]
    refine ⟨?_, fun h => hP c h⟩
    by_cases hz : ∃ i, i < A.n ∧ c i ≠ 0
    · exact le_of_lt (hP c hz)
    · push Not at hz
      rw [hD.symm, blockDot_congr (x' := 0) (fun i hi => hz i hi) (fun _ _ => rfl), hD.zero]
  obtain ⟨i, hi, hbi⟩ := hb
  obtain ⟨D0, hD0, hiD0⟩ := hcov i hi
  have key : ∀ (ds : List (List Nat)) (cs : List (Nat → V)), (∀ D ∈ ds, ∀ g ∈ D, g < A.n) → List.Forall₂ (fun D c => SolvesOn act A D b c) ds cs →
      0 ≤ blockDot B A.n b cs.sum ∧ (D0 ∈ ds → 0 < blockDot B A.n b cs.sum) := by
    intro ds cs hin h1
    induction h1 with
    | nil => simp only [List.sum_nil]; rw [hD.symm, hD.zero]; exact ⟨le_refl _, by simp⟩
    | @cons D c ds cs hc _ ih =>
      obtain ⟨i1, i2⟩ := ih fun D' h' => hin D' (by simp [h'])
      have hh := hnn D c hc
      simp only [List.sum_cons, hD.add']
      refine ⟨add_nonneg hh.1 i1, fun hm => ?_⟩
      rcases List.mem_cons.1 hm with rfl | hm
      · refine add_pos_of_pos_of_nonneg (hh.2 ?_) i1
        by_contra hz
        push Not at hz
        have hc0 : c = 0 := by
          funext g
          by_cases hg : g ∈ D0
          · exact hz g (hin D0 (by simp) g hg)
          · exact hc.supp g hg
        subst hc0
        have := hc.eqn i hiD0
        have zz : A.apply act (0 : Nat → V) i = 0 := by simp [SpMat.apply, SpMat.partSum]
        rw [zz] at this
        exact hbi this.symm
      · exact add_pos_of_nonneg_of_pos hh.1 (i2 hm)
  exact (key doms cs h.inside hcs).2 hD0

omit hB in
/-- With relaxation factor one the equations of the last subdomain hold after the multiplicative mode (for every matrix). -/
theorem C58_last_subdomain (D : List Nat) (h : ExactSchwarz act mk A (doms ++ [D]) (1 : K) o)
    (init x b y : Nat → V) (hy : apply mk act .multiplicative o init x b = .ok y) : ∀ g ∈ D, A.apply act y g = b g := by
  have hs := h.mult hy
  have key : ∀ (l : List (List Nat)) (x : Nat → V), Successive act A (SolvesOn act A) (1 : K) b (l ++ [D]) x y → ∀ g ∈ D, A.apply act y g = b g := by
    intro l
    induction l with
    | nil =>
      intro x hs
      cases hs with
      | @cons _ _ _ c _ hc hs =>
        cases hs
        intro g hg
        have := hc.eqn g hg
        rw [apply_add, apply_smul act hact, one_smul, Pi.add_apply, this, resid]
        abel
    | cons D' l ih =>
      intro x hs
      cases hs with
      | cons hc hs => exact ih _ hs
  exact key doms x hs

end

/-- The Laplacian is tridiagonal: eliminations in any subdomain create no fill-in, so the ILU(0) subdomain solver is exact. -/
theorem demoLap_noFill (D : List Nat) : NoFill demoLap D := by
  have h1 : ∀ i j, demoLap.Has i j → i < 3 ∧ (j = i ∨ j = i + 1 ∨ i = j + 1) := by
    rintro i j ⟨hi, b, hb⟩
    have hi : i < 3 := hi
    interval_cases i <;> simp [demoLap] at hb <;> omega
  intro g _ h _ k _ hkg hkh hg hh
  have a := h1 _ _ hg
  have c := h1 _ _ hh
  have : g = h := by omega
  subst this
  obtain ⟨hlt, -⟩ := a
  interval_cases g <;> exact ⟨by decide, 2, by decide⟩

theorem numAct_eq : (numAct : ℚ → ℚ →+ ℚ) = Ilu.act := by
  funext a; ext x; rfl

theorem demoLap_exact : Answers (ilu0Solver numInv) demoLap (SolvesOn numAct demoLap) := by
  have hwf : demoLap.WF := by
    intro i hi
    have hi : i < 3 := hi
    interval_cases i <;> exact ⟨by simp [demoLap, Row.Asc], by simp [demoLap]⟩
  rw [numAct_eq]
  intro D S hD hn hS lhs rhs r l hr hl
  exact C57_ilu0_exact numInv demoLap hwf D S hD hn hS lhs rhs r l hr hl (demoLap_noFill D)

/-- Non-vacuity: the 3x3 Laplacian with two overlapping subdomains meets all hypotheses, and `apply` changes the vector. -/
example : ∃ o : Obj ℚ ℚ ℚ, ExactSchwarz numAct (ilu0Solver numInv) demoLap [[0, 1], [1, 2]] (1 : ℚ) o ∧ Covers demoLap [[0, 1], [1, 2]] ∧
    demoLap.Symmetric mulForm numAct ∧ demoLap.PosDef mulForm numAct ∧ ScalarProd mulForm ∧
    (∃ y, apply (ilu0Solver numInv) numAct .multiplicative o 0 0 (vec [1, 2, 3]) = .ok y ∧ y 0 = 4 / 3 ∧ y 1 = 29 / 9) := by
  have hc : ∃ o : Obj ℚ ℚ ℚ, ctorDomains (ilu0Solver numInv) false demoLap [[0, 1], [1, 2]] (1 : ℚ) true = .ok o := ⟨_, rfl⟩
  obtain ⟨o, ho⟩ := hc
  have hrun : ((ctorDomains (ilu0Solver numInv) false demoLap [[0, 1], [1, 2]] (1 : ℚ) true >>= fun o =>
      apply (ilu0Solver numInv) numAct .multiplicative o 0 0 (vec [1, 2, 3])) >>= fun y => Res.ok (y 0, y 1)) = .ok (4 / 3, 29 / 9) := by
    decide +kernel
  rw [ho, Res.ok_bind] at hrun
  simp only [Res.bind_eq_ok] at hrun
  obtain ⟨y, hy, h⟩ := hrun
  injection h with h
  simp only [Prod.mk.injEq] at h
  refine ⟨o, ⟨by decide, by decide, demoLap_exact, false, true, by simp, ho⟩, fun i hi => ?_, demoLap_ok.2.2.2.1, demoLap_ok.2.2.2.2, mulForm_ok, y, hy, h⟩
  have hi : i < 3 := hi
  interval_cases i
  · exact ⟨[0, 1], by simp, by simp⟩
  · exact ⟨[0, 1], by simp, by simp⟩
  · exact ⟨[1, 2], by simp, by simp⟩

end Ovl
end Istl
