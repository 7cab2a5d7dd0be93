import Verif.Lemmas.OvlSchwarz
import Verif.Props.C52

/-! # Energy and symmetry of overlapping Schwarz methods with exact subdomain solvers -/

namespace Istl
namespace Ovl

variable {K V R : Type} [Field K] [LinearOrder K] [IsStrictOrderedRing K] [AddCommGroup V] [Module K V] {B : V → V → K}

section
variable (hB : ScalarProd B) (act : R → V →+ V) (hact : ∀ a (c : K) x, act a (c • x) = c • act a x) (A : SpMat R)
include hB

theorem dot_supp {D : List Nat} {c u v : Nat → V} (hc : ∀ g, g ∉ D → c g = 0) (h : ∀ g ∈ D, u g = v g) (n : Nat) :
    blockDot B n u c = blockDot B n v c := by
  unfold blockDot
  refine Finset.sum_congr rfl fun g _ => ?_
  by_cases hg : g ∈ D
  · rw [h g hg]
  · rw [hc g hg, hB.symm, hB.symm (v g)]
    have : ∀ z, B 0 z = 0 := fun z => by have := hB.smul 0 0 z; simpa using this
    rw [this, this]

include hact

theorem apply_lin (x c : Nat → V) (w : K) : A.apply act (x + w • c) = A.apply act x + w • A.apply act c := by
  rw [apply_add, apply_smul act hact]

omit hB in
theorem resid_lin (b x c : Nat → V) (w : K) : resid act A b (x + w • c) = resid act A b x - w • A.apply act c := by
  funext g
  simp only [resid, apply_add, apply_smul act hact, Pi.add_apply, Pi.sub_apply, Pi.smul_apply]
  abel

theorem step_functional (hA : A.Symmetric B act) {D : List Nat} {b x c : Nat → V} (hc : SolvesOn act A D (resid act A b x) c) (w : K) :
    A.functional B act b (x + w • c) = A.functional B act b x - w * (2 - w) * A.energy B act c := by
  have hD := blockDot_scalarProd hB A.n
  have e1 : blockDot B A.n (A.apply act c) c = blockDot B A.n (resid act A b x) c := dot_supp hB hc.supp hc.eqn A.n
  have e2 : blockDot B A.n (resid act A b x) c = blockDot B A.n b c - blockDot B A.n (A.apply act x) c := by
    rw [← hD.sub]; rfl
  have e3 : blockDot B A.n (A.apply act c) x = blockDot B A.n (A.apply act x) c := by rw [hA, hD.symm]
  unfold SpMat.functional SpMat.energy
  rw [apply_lin hB act hact]
  simp only [hD.add, hD.add', hD.smul, hD.smul']
  rw [e3, e1, e2]
  ring

/-- subdomain corrections never raise the functional; if it stays, nothing changes and the residual vanishes in all subdomains -/
theorem successive_functional (hA : A.Symmetric B act) (hP : A.PosDef B act) {w : K} (h0 : 0 < w) (h2 : w < 2) (b : Nat → V) {doms : List (List Nat)}
    {x y : Nat → V} (h : Successive act A (SolvesOn act A) w b doms x y) (hn : ∀ D ∈ doms, ∀ g ∈ D, g < A.n) :
    A.functional B act b y ≤ A.functional B act b x ∧
      (A.functional B act b y = A.functional B act b x → y = x ∧ ∀ D ∈ doms, ∀ g ∈ D, A.apply act x g = b g) := by
  induction h with
  | nil x => exact ⟨le_refl _, fun _ => ⟨rfl, by simp⟩⟩
  | @cons D doms x c y hc h ih =>
    obtain ⟨i1, i2⟩ := ih fun D' h' => hn D' (by simp [h'])
    have hs := step_functional hB act hact A hA hc w
    have hpos : 0 < w * (2 - w) := mul_pos h0 (by linarith)
    by_cases hz : ∃ g, g < A.n ∧ c g ≠ 0
    · have hE : 0 < A.energy B act c := hP c hz
      have : 0 < w * (2 - w) * A.energy B act c := mul_pos hpos hE
      exact ⟨by linarith, fun he => by linarith⟩
    · have hc0 : c = 0 := by
        funext g
        by_cases hg : g ∈ D
        · by_contra hne
          exact hz ⟨g, hn D (by simp) g hg, hne⟩
        · exact hc.supp g hg
      subst hc0
      have ex : x + w • (0 : Nat → V) = x := by simp
      rw [ex] at i1 i2
      refine ⟨i1, fun he => ?_⟩
      obtain ⟨e1, e2⟩ := i2 he
      refine ⟨e1, ?_⟩
      intro D' hD' g hg
      rcases List.mem_cons.1 hD' with rfl | hD'
      · have := hc.eqn g hg
        have z : A.apply act (0 : Nat → V) g = 0 := by simp [SpMat.apply, SpMat.partSum]
        rw [z] at this
        simp only [resid] at this
        exact (sub_eq_zero.1 this.symm).symm
      · exact e2 D' hD' g hg

/-- the subdomains in opposite order give the transposed correction -/
theorem successive_adjoint (hA : A.Symmetric B act) {w : K} : ∀ (doms : List (List Nat)) (b x y : Nat → V) (b' y' : Nat → V),
    Successive act A (SolvesOn act A) w b doms x y → Successive act A (SolvesOn act A) w b' doms.reverse 0 y' →
    blockDot B A.n (y - x) b' = blockDot B A.n (resid act A b x) y' := by
  have hD := blockDot_scalarProd hB A.n
  have split : ∀ (l m : List (List Nat)) (b x y : Nat → V), Successive act A (SolvesOn act A) w b (l ++ m) x y →
      ∃ z, Successive act A (SolvesOn act A) w b l x z ∧ Successive act A (SolvesOn act A) w b m z y := by
    intro l
    induction l with
    | nil => intro m b x y h; exact ⟨x, .nil x, h⟩
    | cons D l ih =>
      intro m b x y h
      cases h with
      | cons hc h =>
        obtain ⟨z, h1, h2⟩ := ih m b _ y h
        exact ⟨z, .cons hc h1, h2⟩
  intro doms
  induction doms with
  | nil =>
    intro b x y b' y' h h'
    cases h
    cases h'
    rw [sub_self, hD.zero, hD.symm, hD.zero]
  | cons D doms ih =>
    intro b x y b' y' h h'
    rw [List.reverse_cons] at h'
    obtain ⟨z, h1, h2⟩ := split _ _ _ _ _ h'
    cases h2 with
    | @cons _ _ _ c' _ hc' h2 =>
      cases h2
      cases h with
      | @cons _ _ _ c _ hc h =>
        have := ih b _ y b' z h h1
        rw [show y - x = (y - (x + w • c)) + w • c by abel, hD.add, hD.smul, this, resid_lin act hact A, hD.sub, hD.smul, hD.add', hD.smul']
        have e1 : blockDot B A.n (resid act A b' z) c = blockDot B A.n (A.apply act c') c := (dot_supp hB hc.supp (u := A.apply act c') ?_ A.n).symm
        have e2 : blockDot B A.n (resid act A b x) c' = blockDot B A.n (A.apply act c) c' := (dot_supp hB hc'.supp hc.eqn A.n).symm
        · have e3 : blockDot B A.n (resid act A b' z) c = blockDot B A.n b' c - blockDot B A.n (A.apply act z) c := by rw [← hD.sub]; rfl
          have e4 : blockDot B A.n (A.apply act c') c = blockDot B A.n (A.apply act c) c' := by rw [hA, hD.symm]
          have e5 : blockDot B A.n (A.apply act c) z = blockDot B A.n (A.apply act z) c := by rw [hA, hD.symm]
          rw [e2, ← e4, ← e1, e3, e5, hD.symm c b']
          ring
        · exact hc'.eqn

omit hact in
/-- one subdomain: the correction is a symmetric function of the residual -/
theorem solvesOn_symm (hA : A.Symmetric B act) {D : List Nat} {r c r' c' : Nat → V} (h : SolvesOn act A D r c) (h' : SolvesOn act A D r' c') :
    blockDot B A.n c r' = blockDot B A.n r c' := by
  have hD := blockDot_scalarProd hB A.n
  rw [hD.symm c, ← dot_supp hB h.supp h'.eqn A.n, ← dot_supp hB h'.supp h.eqn A.n, hA, hD.symm]

omit hact in
theorem sum_energy (hA : A.Symmetric B act) (hP : ∀ x, 0 ≤ A.energy B act x) : ∀ cs : List (Nat → V),
    A.energy B act cs.sum ≤ cs.length * (cs.map (A.energy B act)).sum := by
  have hD := blockDot_scalarProd hB A.n
  have cross : ∀ c d : Nat → V, 2 * blockDot B A.n (A.apply act c) d ≤ A.energy B act c + A.energy B act d := by
    intro c d
    have h := hP (c - d)
    unfold SpMat.energy at h ⊢
    have e : A.apply act (c - d) = A.apply act c - A.apply act d := by
      have := apply_add act A (c - d) d
      rw [sub_add_cancel] at this
      rw [this]; abel
    rw [e, hD.sub, hD.sub', hD.sub', hA d c, hD.symm d] at h
    linarith
  have crossSum : ∀ (c : Nat → V) (cs : List (Nat → V)),
      2 * blockDot B A.n (A.apply act c) cs.sum ≤ cs.length * A.energy B act c + (cs.map (A.energy B act)).sum := by
    intro c cs
    induction cs with
    | nil => simp [hD.symm _ (0 : Nat → V), hD.zero]
    | cons d cs ih =>
      have := cross c d
      simp only [List.sum_cons, hD.add', List.length_cons, List.map_cons, Nat.cast_add, Nat.cast_one]
      linarith
  intro cs
  induction cs with
  | nil =>
    have : A.energy B act (0 : Nat → V) = 0 := by unfold SpMat.energy; rw [hD.symm, hD.zero]
    simp [this]
  | cons c cs ih =>
    have h1 := crossSum c cs
    have h2 : A.energy B act (c + cs.sum) = A.energy B act c + A.energy B act cs.sum + 2 * blockDot B A.n (A.apply act c) cs.sum := by
      unfold SpMat.energy
      rw [apply_add, hD.add, hD.add', hD.add', hA cs.sum c, hD.symm cs.sum]
      ring
    simp only [List.sum_cons, List.length_cons, List.map_cons, Nat.cast_add, Nat.cast_one]
    rw [h2]
    linarith

/-- the energy of the error differs from the functional by a constant -/
theorem energy_functional (hA : A.Symmetric B act) (b z x : Nat → V) (hz : ∀ i, i < A.n → A.apply act z i = b i) :
    A.energy B act (z - x) = A.functional B act b x + A.energy B act z := by
  have hD := blockDot_scalarProd hB A.n
  unfold SpMat.energy SpMat.functional
  have e : A.apply act (z - x) = A.apply act z - A.apply act x := by
    rw [sub_eq_add_neg, apply_add, show -x = (-1 : K) • x by simp, apply_smul act hact]
    simp [sub_eq_add_neg]
  rw [e, hD.sub, hD.sub', hD.sub', hA x z, hD.symm x,
    blockDot_congr (x := A.apply act z) (x' := b) (y := x) (y' := x) hz (fun _ _ => rfl)]
  ring

omit hact in
/-- a vanishing residual gives a vanishing correction -/
theorem solvesOn_zero (hP : A.PosDef B act) {D : List Nat} (hn : ∀ g ∈ D, g < A.n) {r c : Nat → V} (h : SolvesOn act A D r c)
    (hr : ∀ g ∈ D, r g = 0) : c = 0 := by
  have hD := blockDot_scalarProd hB A.n
  have e : blockDot B A.n (A.apply act c) c = 0 := by
    rw [dot_supp hB h.supp (v := 0) (fun g hg => by rw [h.eqn g hg, hr g hg]; rfl) A.n, hD.zero]
  funext g
  by_contra hne
  by_cases hg : g ∈ D
  · have := hP c ⟨g, hn g hg, hne⟩
    rw [e] at this
    exact lt_irrefl _ this
  · exact hne (h.supp g hg)

omit hact in
theorem successive_fixed (hP : A.PosDef B act) {w : K} {b : Nat → V} {doms : List (List Nat)} {x y : Nat → V}
    (h : Successive act A (SolvesOn act A) w b doms x y) (hn : ∀ D ∈ doms, ∀ g ∈ D, g < A.n)
    (hx : ∀ D ∈ doms, ∀ g ∈ D, A.apply act x g = b g) : y = x := by
  induction h with
  | nil x => rfl
  | @cons D doms x c y hc h ih =>
    have hc0 : c = 0 := solvesOn_zero hB act A hP (hn D (by simp)) hc (fun g hg => by simp only [resid, hx D (by simp) g hg, sub_self])
    subst hc0
    have ex : x + w • (0 : Nat → V) = x := by simp
    rw [ex] at ih
    exact ih (fun D' h' => hn D' (by simp [h'])) (fun D' h' => hx D' (by simp [h']))

end

end Ovl
end Istl
