import Verif.Lemmas.ParAmg
import Verif.Spec.ParAmg
import Verif.Props.C81

/-! The parts of the parallel cycle represent those of the global one. -/

namespace Istl
namespace Amg
open Par Finset

variable {B V K : Type} [AddCommGroup V]

theorem restrictOn_eq (agg : Nat → Agg) (n : Nat) (fine : Nat → V) (a : Nat) :
    restrictOn agg n fine a = ∑ i ∈ range n, if agg i = .id a then fine i else 0 := by
  unfold restrictOn
  induction n with
  | zero => rfl
  | succ n ih =>
    rw [List.range_succ, List.foldl_append, Finset.sum_range_succ]
    simp only [List.foldl_cons, List.foldl_nil]
    cases h : agg n with
    | unagg => dsimp only; rw [ih, if_neg (by intro hh; cases hh), add_zero]
    | iso => dsimp only; rw [ih, if_neg (by intro hh; cases hh), add_zero]
    | id b =>
      dsimp only
      by_cases hb : b = a
      · subst hb
        rw [upd_same, ih, if_pos rfl]
      · rw [upd_ne _ _ (Ne.symm hb), ih, if_neg (by intro hh; injection hh with hh; exact hb hh), add_zero]

theorem prolongOn_eq (agg : Nat → Agg) (n : Nat) (coarse fine : Nat → V) (i : Nat) :
    prolongOn agg n coarse fine i = if i < n then (match agg i with | .id a => fine i + coarse a | _ => fine i) else fine i := by
  unfold prolongOn
  induction n with
  | zero => rfl
  | succ n ih =>
    rw [List.range_succ, List.foldl_append]
    simp only [List.foldl_cons, List.foldl_nil]
    by_cases hin : i = n
    · subst hin
      rw [if_pos (by omega)]
      rw [if_neg (by omega)] at ih
      cases h : agg i with
      | unagg => exact ih
      | iso => exact ih
      | id b => dsimp only; rw [upd_same, ih]
    · have : (if i < n + 1 then (match agg i with | .id a => fine i + coarse a | _ => fine i) else fine i) =
          if i < n then (match agg i with | .id a => fine i + coarse a | _ => fine i) else fine i := by
        by_cases hi : i < n
        · rw [if_pos hi, if_pos (by omega)]
        · rw [if_neg hi, if_neg (by omega)]
      rw [this, ← ih]
      cases h : agg n with
      | unagg => rfl
      | iso => rfl
      | id b => dsimp only; rw [upd_ne _ _ hin]

theorem published_iff {P : Nat} {fine C : Nat → PIS} {F : Nat → Option Nat} {agg : Nat → Nat → Agg} (hP : Published P fine C F agg)
    {p : Nat} (hp : p < P) (hC : PisOk (C p)) {e : Idx} (he : e ∈ fine p) {c : Idx} (hc : c ∈ C p) : agg p e.loc = .id c.loc ↔ F e.g = some c.g := by
  have h := hP p hp e he
  cases hF : F e.g with
  | none =>
    rw [hF] at h
    dsimp only at h
    rw [h]
    exact ⟨fun hc => by (cases hc), fun hc => by (cases hc)⟩
  | some i =>
    rw [hF] at h
    obtain ⟨c', hc', hg, hid⟩ := h
    rw [hid, ← hg]
    constructor
    · intro h
      injection h with h
      rw [idx_eq_of_loc hC hc' hc h]
    · intro h
      rw [idx_eq_of_g hC hc' hc (Option.some.inj h)]

/-- restriction with the values of the fine vector right where they are needed -/
theorem restrict_core {P : Nat} {fine C : Nat → PIS} {n : Nat → Nat} {G : Finset Nat} (hD : Decomp P fine n G) {F : Nat → Option Nat}
    {agg : Nat → Nat → Agg} (hP : Published P fine C F agg) (hC : ∀ p, p < P → PisOk (C p)) (r : DVec V) (Y : Nat → V)
    (hr : ∀ p, p < P → ∀ c ∈ C p, c.attr ≠ .copy → ∀ g ∈ G, F g = some c.g → ∃ e ∈ fine p, e.g = g ∧ r p e.loc = Y g) :
    Projected P C (fun q => project (C q) (restrictOn (agg q) (n q) (r q))) (globalRestrict G F Y) := by
  intro p hp c hc
  obtain ⟨c1, c2⟩ := C36_project (hC p hp) (restrictOn (agg p) (n p) (r p))
  by_cases hcp : c.attr = .copy
  · rw [if_pos hcp]; exact c1 c hc hcp
  · rw [if_neg hcp]
    show project _ _ _ = _
    rw [c2 c.loc (fun f hf hl => by rw [idx_eq_of_loc (hC p hp) hf hc hl]; exact hcp), restrictOn_eq]
    refine sum_local hD hp _ _ ?_ ?_
    · intro f hf
      by_cases hF : F f.g = some c.g
      · rw [if_pos ((published_iff hP hp (hC p hp) hf hc).2 hF), if_pos hF]
        obtain ⟨e, he, hg, hv⟩ := hr p hp c hc hcp f.g (hD.inG p hp f hf) hF
        rw [← idx_eq_of_g (hD.ok p hp) he hf hg]
        rw [hv, hg]
      · rw [if_neg (fun hh => hF ((published_iff hP hp (hC p hp) hf hc).1 hh)), if_neg hF]
    · intro g hg hno
      rw [if_neg]
      intro hF
      obtain ⟨e, he, heg, -⟩ := hr p hp c hc hcp g hg hF
      exact hno e he heg

theorem prolong_core {P : Nat} {fine C : Nat → PIS} {n : Nat → Nat} {G : Finset Nat} (hD : Decomp P fine n G) {F : Nat → Option Nat}
    {agg : Nat → Nat → Agg} (hP : Published P fine C F agg) (c : DVec V) (Z : Nat → V) (hc : Consistent P C c Z) :
    Consistent P fine (fun q => prolongOn (agg q) (n q) (c q) fun _ => 0) (globalProlong F Z) := by
  intro p hp e he
  show prolongOn _ _ _ _ _ = _
  rw [prolongOn_eq, if_pos (hD.bounded p hp e he)]
  have h := hP p hp e he
  unfold globalProlong
  cases hF : F e.g with
  | none => rw [hF] at h; dsimp only at h; rw [h]
  | some I =>
    rw [hF] at h
    obtain ⟨c', hc', hg, hid⟩ := h
    rw [hid]
    dsimp only
    rw [zero_add, hc p hp c' hc', hg]

theorem parRestrict_ok {P : Nat} {L : ParLevel B V} {C : Nat → PIS} {G : Finset Nat} {F : Nat → Option Nat} (hT : TransferOk P L C G F)
    (hD : Decomp P L.pis L.sz G) (hC : ∀ p, p < P → PisOk (C p)) (y : DVec V) (Y : Nat → V) (hy : Projected P L.pis y Y) :
    Projected P C (parRestrict L C y) (globalRestrict G F Y) := by
  unfold parRestrict
  refine restrict_core hT.decomp hT.published hC _ Y ?_
  have hcomp := hT.complete
  have hforth := hT.forth
  have hdec := hT.decomp
  unfold ParLevel.fine at hcomp
  unfold ParLevel.fine ParLevel.fineSz at hdec
  unfold ParLevel.fine
  cases hR : L.redist with
  | none =>
    rw [hR] at hcomp
    intro p hp c hc hcc g hg hF
    obtain ⟨e, he, heg, ha⟩ := hcomp p hp c hc hcc g hg hF
    refine ⟨e, he, heg, ?_⟩
    dsimp only at ha ⊢
    rw [hy p hp e he, if_neg ha, heg]
  | some R =>
    rw [hR] at hcomp hforth hdec
    intro p hp c hc hcc g hg hF
    obtain ⟨e, he, heg, ha⟩ := hcomp p hp c hc hcc g hg hF
    refine ⟨e, he, heg, ?_⟩
    letI : Inhabited V := ⟨0⟩
    have hyo : ConsistentAtOwner P L.pis y Y := by
      intro p hp e he ha
      rw [hy p hp e he, if_neg (by rw [ha]; decide)]
    have := (C81_vector hD hdec y L.stale Y hyo L.orderR (hforth (by simp))).1 p hp e he ha
    rw [heg] at this
    exact this

theorem parProlong_ok {P : Nat} {L : ParLevel B V} {C : Nat → PIS} {G : Finset Nat} {F : Nat → Option Nat} (hT : TransferOk P L C G F)
    (hD : Decomp P L.pis L.sz G) (hord : AllOthers P L.order) (v c : DVec V) (Z : Nat → V) (hc : Consistent P C c Z) :
    Consistent P L.pis (parProlong L v c) (globalProlong F Z) := by
  have core := prolong_core hT.decomp hT.published c Z hc
  have hback := hT.back
  have hdec := hT.decomp
  unfold parProlong
  unfold ParLevel.fine ParLevel.fineSz at core hdec
  cases hR : L.redist with
  | none => rw [hR] at core; exact core
  | some R =>
    rw [hR] at core hback hdec
    letI : Inhabited V := ⟨0⟩
    refine C36_consistent hD _ _ ?_ L.order hord
    exact (C81_backward hD hdec v _ v L.orderB L.orderB (hback (by simp)) (hback (by simp))).1 _
      (fun p hp e he _ => core p hp e he)

theorem globalMul_add [AddCommGroup B] (β : BlockAct B V V) (G : Finset Nat) (M : Nat → Nat → B) (x y : Nat → V) :
    globalMul β G M (x + y) = globalMul β G M x + globalMul β G M y := by
  funext g
  simp only [globalMul, Pi.add_apply, map_add, Finset.sum_add_distrib]

theorem smoother_ok {P : Nat} {pis : Nat → PIS} {sz : Nat → Nat} {G : Finset Nat} (hD : Decomp P pis sz G)
    {prec : Nat → (Nat → V) → (Nat → V) → (Nat → V)} (hl : LocalPrec sz prec) {W : (Nat → V) → Nat → V} (hW : SmootherOf P pis prec W)
    {order : Nat → List Nat} (hord : AllOthers P order) (d : DVec V) (D : Nat → V) (hd : Projected P pis d D) :
    Consistent P pis (blockPrecApply prec pis order 0 d) (W D) := by
  obtain ⟨W', h1, h2⟩ := C54_block_preconditioner hD prec hl
  have := h2 order hord 0 d D (fun p _ e _ => rfl) hd
  intro p hp e he
  rw [this p hp e he]
  obtain ⟨q, hq, f, hf, hg, ha⟩ := hD.owned e.g (hD.inG p hp e he)
  rw [← hg, h1 D q hq f hf ha, hW D q hq f hf ha]

variable [Ring K] [Module K V] [AddCommGroup B]

theorem overlap_simul {P : Nat} {L : Nat → ParLevel B V} {H : Nat → GlobalLevel B V} {coarsest : Nat} (hR : Represents P L H coarsest)
    (β : BlockAct B V V) (psolve : DVec V → DVec V → DVec V × DVec V × Bool) (solve : (Nat → V) → (Nat → V) → (Nat → V) × (Nat → V) × Bool)
    (hsol : SolverOf P (L coarsest).pis psolve solve) (damp : K) (m1 m2 gamma : Nat) :
    Simul (overlapAmg β L coarsest psolve damp m1 m2 gamma) (globalAmg β H coarsest solve damp m1 m2 gamma)
      (fun l => Consistent P (L l).pis) (fun l => Projected P (L l).pis) where
  coarsest := rfl
  damp := rfl
  preSteps := rfl
  postSteps := rfl
  gamma := rfl
  zero l p hp e he := rfl
  add l x y x' y' hx hy p hp e he := by
    show x p e.loc + y p e.loc = x' e.g + y' e.g
    rw [hx p hp e he, hy p hp e he]
  smul l x x' hx p hp e he := by
    show damp • x p e.loc = damp • x' e.g
    rw [hx p hp e he]
  defect l hl v r v' r' hv hr := by
    have := C54_overlapping_applyscaleadd (hR.decomp l (Nat.le_of_lt hl)) β (hR.mat l hl) (-1 : K) v r v' r' hv
      (fun p hp e he hc => by rw [hr p hp e he, if_neg hc])
    intro p hp e he
    refine (this p hp e he).trans ?_
    have hx : r' e.g + (-1 : K) • globalMul β (H l).G (H l).M v' e.g = (r' - globalMul β (H l).G (H l).M v') e.g := by
      rw [neg_smul, one_smul, Pi.sub_apply, sub_eq_add_neg]
    exact if_congr Iff.rfl rfl hx
  proj l hl r r' hr p hp e he := by
    have hD := hR.decomp l (Nat.le_of_lt hl)
    obtain ⟨c1, c2⟩ := C36_project (hD.ok p hp) (r p)
    show project _ _ _ = _
    by_cases hc : e.attr = .copy
    · rw [if_pos hc]; exact c1 e he hc
    · rw [c2 e.loc (fun f hf hh => by rw [idx_eq_of_loc (hD.ok p hp) hf he hh]; exact hc)]
      exact hr p hp e he
  pre l hl d d' hd := smoother_ok (hR.decomp l (Nat.le_of_lt hl)) (hR.preLocal l hl) (hR.pre l hl) (hR.order l (Nat.le_of_lt hl)) d d' hd
  post l hl d d' hd := smoother_ok (hR.decomp l (Nat.le_of_lt hl)) (hR.postLocal l hl) (hR.post l hl) (hR.order l (Nat.le_of_lt hl)) d d' hd
  restr l hl d d' hd := parRestrict_ok (hR.transfer l hl) (hR.decomp l (Nat.le_of_lt hl)) (hR.decomp (l + 1) hl).ok d d' hd
  prol l hl v c c' hc := parProlong_ok (hR.transfer l hl) (hR.decomp l (Nat.le_of_lt hl)) (hR.order l (Nat.le_of_lt hl)) v c c' hc
  solve u r u' r' hu hr := hsol u r u' r' hu hr
  copyAll u u' hu := C36_consistent (hR.decomp 0 (Nat.zero_le _)) u u' (fun p hp e he _ => hu p hp e he) _ (hR.order 0 (Nat.zero_le _))

end Amg
end Istl
