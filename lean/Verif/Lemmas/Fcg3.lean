import Verif.Lemmas.Fcg2

/-! # Flexible CG: the run, and the comparison with `GeneralizedPCGSolver` -/

namespace Istl
namespace Solver
variable {K Rl X : Type} [Field K] [LinearOrder K] [IsStrictOrderedRing K] [AddCommGroup X] [Module K X] [Zero Rl] [Mul Rl]
variable {B : X → X → K} {W : Submodule K X} {A : Module.End K X} {E : Env K Rl X}

section Run
variable {orth : Nat → X → FcSt K X Rl → FcSt K X Rl} {cycle : FcSt K X Rl → Nat × FcSt K X Rl} {m : Nat} {st : FcSt K X Rl}

theorem fcInner_raw (hc : ∀ s, (cycle s).1 ≤ m) (red : Rl) : ∀ n k (it : It Rl), it.i = k →
    ∀ r, fcInner E red m orth (n + 1) (k + 1) (fcSeq E orth cycle m st k).1 (fcSeq E orth cycle m st k).2 it = r → r.2.2.2.2 = none →
    ∃ k', k < k' ∧ k' ≤ k + (n + 1) ∧ r.1 = (fcRaw E orth cycle m st k').2 ∧ r.2.2.2.1 = (fcRaw E orth cycle m st k').1 ∧
      r.2.2.1 = k' + 1 ∧ r.2.1.i = k' ∧ (k' = k + (n + 1) ∨ m < (fcRaw E orth cycle m st k').1) := by
  have hle : ∀ k, (fcSeq E orth cycle m st k).1 ≤ m := fun k => by
    unfold fcSeq fcNorm
    split
    · assumption
    · exact hc _
  intro n
  induction n with
  | zero =>
    rintro k it hi r rfl hn
    simp only [fcInner, if_pos (hle k)] at hn ⊢
    rw [show fcStep E orth (k + 1) (fcSeq E orth cycle m st k).1 (fcSeq E orth cycle m st k).2 = (fcRaw E orth cycle m st (k + 1)).2 from rfl]
      at hn ⊢
    cases hs : it.step E red (k + 1) (fcRaw E orth cycle m st (k + 1)).2.def' with
    | none => rw [hs] at hn; cases hn
    | some it' => exact ⟨k + 1, by omega, by omega, rfl, rfl, rfl, (step_fields hs).1, .inl rfl⟩
  | succ n ih =>
    rintro k it hi r rfl hn
    rw [show fcInner E red m orth (n + 1 + 1) (k + 1) (fcSeq E orth cycle m st k).1 (fcSeq E orth cycle m st k).2 it =
      (match it.step E red (k + 1) (fcRaw E orth cycle m st (k + 1)).2.def' with
      | none => ((fcRaw E orth cycle m st (k + 1)).2, it, k + 1, (fcSeq E orth cycle m st k).1, some Exc.solverAbort)
      | some it => fcInner E red m orth (n + 1) (k + 1 + 1) (fcRaw E orth cycle m st (k + 1)).1 (fcRaw E orth cycle m st (k + 1)).2 it) by
        rw [fcInner, if_pos (hle k)]; rfl] at hn ⊢
    cases hs : it.step E red (k + 1) (fcRaw E orth cycle m st (k + 1)).2.def' with
    | none => rw [hs] at hn; cases hn
    | some it' =>
      rw [hs] at hn
      dsimp only at hn ⊢
      by_cases hb : (fcRaw E orth cycle m st (k + 1)).1 ≤ m
      · have e : fcSeq E orth cycle m st (k + 1) = fcRaw E orth cycle m st (k + 1) := if_pos hb
        rw [← e] at hn ⊢
        obtain ⟨k', h1, h2, h3⟩ := ih (k + 1) it' (step_fields hs).1 _ rfl hn
        refine ⟨k', by omega, by omega, h3.1, h3.2.1, h3.2.2.1, h3.2.2.2.1, ?_⟩
        rcases h3.2.2.2.2 with h | h
        · left; omega
        · right; exact h
      · rw [fcInner, if_neg hb]
        exact ⟨k + 1, by omega, by omega, rfl, rfl, rfl, (step_fields hs).1, .inr (by omega)⟩

theorem fcOuter_seq (hc : ∀ s, (cycle s).1 ≤ m) (hcyc : ∀ s, (cycle s).2.x = s.x ∧ (cycle s).2.b = s.b) (red : Rl) (maxit : Nat) :
    ∀ fuel k (it : It Rl) ib s, it.i = k → k ≤ maxit → (k + 1 ≤ maxit → (ib, s) = fcSeq E orth cycle m st k) →
      s.x = (fcSeq E orth cycle m st k).2.x → s.b = (fcSeq E orth cycle m st k).2.b →
      ∀ r, fcOuter E red maxit m orth cycle fuel (k + 1) ib s it = some r → r.2.2 = none →
      ∃ k', r.2.1.i = k' ∧ r.1.x = (fcSeq E orth cycle m st k').2.x ∧ r.1.b = (fcSeq E orth cycle m st k').2.b := by
  intro fuel
  induction fuel with
  | zero =>
    intro k it ib s hi hk hs hx hb r hr _
    unfold fcOuter at hr
    split at hr
    · cases hr
    · obtain rfl := Option.some.inj hr
      exact ⟨k, hi, hx, hb⟩
  | succ fuel ih =>
    intro k it ib s hi hk hs hx hb r hr hn
    unfold fcOuter at hr
    split at hr
    · rename_i hcond
      have hs := hs hcond.1
      obtain ⟨n, hn1⟩ : ∃ n, maxit + 1 - (k + 1) = n + 1 := ⟨maxit - k - 1, by omega⟩
      have e1 : ib = (fcSeq E orth cycle m st k).1 := congrArg Prod.fst hs
      have e2 : s = (fcSeq E orth cycle m st k).2 := congrArg Prod.snd hs
      rw [hn1, e1, e2] at hr
      have hin := fcInner_raw (E := E) (orth := orth) (st := st) hc red n k it hi _ rfl
      dsimp only at hr
      generalize fcInner E red m orth (n + 1) (k + 1) (fcSeq E orth cycle m st k).1 (fcSeq E orth cycle m st k).2 it = R at hr hin
      obtain ⟨st1, it1, i1, ib1, ex⟩ := R
      cases ex with
      | some e =>
        obtain rfl := Option.some.inj hr
        cases hn
      | none =>
        obtain ⟨k', h1, h2, h3, h4, h5, h6, h7⟩ := hin rfl
        dsimp only at h3 h4 h5 h6 hr
        rw [h5] at hr
        refine ih k' it1 _ _ h6 (by omega) ?_ ?_ ?_ r hr hn
        · intro hlt
          rcases h7 with h | h
          · omega
          · rw [h3]
            show cycle _ = fcNorm m cycle _
            unfold fcNorm
            rw [if_neg (by omega)]
        · rw [(hcyc _).1, h3, (fcSeq_x hcyc k').1]
        · rw [(hcyc _).2, h3, (fcSeq_x hcyc k').2]
    · obtain rfl := Option.some.inj hr
      exact ⟨k, hi, hx, hb⟩

/-- The initial state. -/
def fcStart (E : Env K Rl X) (x b : X) : FcSt K X Rl :=
  { x := (E.pre x b).1, b := defect0 E x b, d := fun _ => (E.pre x b).1, ad := fun _ => (E.pre x b).1, dad := fun _ => 0, lim := 0,
    def' := E.norm (defect0 E x b) }

theorem fc_seq (hc : ∀ s, (cycle s).1 ≤ m) (hcyc : ∀ s, (cycle s).2.x = s.x ∧ (cycle s).2.b = s.b) {red : Rl} {maxit fuel : Nat} {x b : X}
    {e : Exit X Rl} (he : fcApply E orth cycle red maxit m fuel x b = some e) (hx : e.exc = none) :
    e.x = E.post (fcSeq E orth cycle m (fcStart E x b) e.it.i).2.x ∧ e.b = (fcSeq E orth cycle m (fcStart E x b) e.it.i).2.b := by
  have h0 : fcSeq E orth cycle m (fcStart E x b) 0 = (0, fcStart E x b) := by
    simp only [fcSeq, fcNorm, fcRaw, Nat.zero_le, if_true]
  unfold fcApply at he
  dsimp only at he
  rw [show E.subOp (E.pre x b).1 (E.pre x b).2 = defect0 E x b from rfl] at he
  cases hs : It.start.step E red 0 (E.norm (defect0 E x b)) with
  | none =>
    rw [hs] at he
    obtain rfl := Option.some.inj he
    cases hx
  | some it =>
    obtain ⟨_, hi, _, _⟩ := good_start hs
    rw [hs] at he
    dsimp only at he
    by_cases hcv : it.converged = true
    · rw [if_pos hcv] at he
      obtain rfl := Option.some.inj he
      dsimp only
      rw [hi, h0]
      exact ⟨rfl, rfl⟩
    · rw [if_neg hcv, Option.map_eq_some_iff] at he
      obtain ⟨⟨st', it', ex⟩, hr, rfl⟩ := he
      have : ex = none := by
        cases ex with
        | none => rfl
        | some e => cases hx
      subst this
      obtain ⟨k', h1, h2, h3⟩ := fcOuter_seq (E := E) (orth := orth) (st := fcStart E x b) hc hcyc red maxit fuel 0 it 0 (fcStart E x b) hi
        (Nat.zero_le _) (fun _ => h0.symm) (by rw [h0]) (by rw [h0]) _ hr rfl
      dsimp only at h1 h2 h3 ⊢
      rw [h1, ← h2]
      exact ⟨rfl, h3⟩

end Run

/-! ### The same as `GeneralizedPCGSolver` -/

section Gpcg
variable {m : Nat}

/-- The two states agree on the first `ib` slots. -/
structure GpFcRel (A : Module.End K X) (ib : Nat) (g : GpSt K X Rl) (f : FcSt K X Rl) : Prop where
  x : g.x = f.x
  b : g.b = f.b
  d : ∀ s < ib, f.d s = g.p s
  dad : ∀ s < ib, f.dad s = g.pp s
  ad : ∀ s < ib, f.ad s = A (g.p s)

theorem gpRel_step (H : SpdProblem B W A E) {i ib : Nat} {g : GpSt K X Rl} {f : FcSt K X Rl} (R : GpFcRel A ib g f) :
    GpFcRel A (ib + 1) (gpMinimise E ib (gpDirection E i ib g)) (fcStep E (fcOrthRestarted E) (i + 1) ib f) ∧
    (gpMinimise E ib (gpDirection E i ib g)).d = (fcStep E (fcOrthRestarted E) (i + 1) ib f).def' := by
  have key : ∀ n ≤ ib, forRange n (fun k d => upd d ib (d ib + (-(E.dot (f.ad k) (E.prec i f.b) / f.dad k)) • d k))
      (upd f.d ib (E.prec i f.b)) = upd f.d ib (forRange n (fun j pi => pi + (-(E.dot (E.op (E.prec i g.b)) (g.p j) / g.pp j)) • g.p j)
        (E.prec i g.b)) := by
    intro n
    induction n with
    | zero => intro _; rw [forRange_zero, forRange_zero, R.b]
    | succ n ih =>
      intro hn
      rw [forRange_succ, ih (by omega), forRange_succ]
      funext s
      by_cases hs : s = ib
      · subst hs
        rw [upd_same, upd_same, upd_same, upd_ne _ _ (by omega : n ≠ s), R.d n (by omega), R.dad n (by omega), R.ad n (by omega), H.dot, H.dot,
          H.op, R.b, H.symm (E.prec i f.b), H.prod.symm (E.prec i f.b)]
      · rw [upd_ne _ _ hs, upd_ne _ _ hs, upd_ne _ _ hs]
  have kd : ∀ s, (fcStep E (fcOrthRestarted E) (i + 1) ib f).d s = upd f.d ib ((gpDirection E i ib g).p ib) s := by
    intro s
    show forRange ib (fun k d => upd d ib (d ib + (-(E.dot (f.ad k) (E.prec i f.b) / f.dad k)) • d k)) (upd f.d ib (E.prec i f.b)) s = _
    rw [key ib (le_refl _)]
    show _ = upd f.d ib (upd g.p ib _ ib) s
    rw [upd_same]
  have kdi := kd ib
  rw [upd_same] at kdi
  have hx : (gpMinimise E ib (gpDirection E i ib g)).x = (fcStep E (fcOrthRestarted E) (i + 1) ib f).x := by
    show g.x + (E.dot ((gpDirection E i ib g).p ib) g.b / E.dot ((gpDirection E i ib g).p ib) (E.op ((gpDirection E i ib g).p ib))) •
      (gpDirection E i ib g).p ib = f.x + (E.dot ((fcStep E (fcOrthRestarted E) (i + 1) ib f).d ib) f.b /
        E.dot ((fcStep E (fcOrthRestarted E) (i + 1) ib f).d ib) (E.op ((fcStep E (fcOrthRestarted E) (i + 1) ib f).d ib))) •
        (fcStep E (fcOrthRestarted E) (i + 1) ib f).d ib
    rw [kdi, R.x, R.b]
  have hb : (gpMinimise E ib (gpDirection E i ib g)).b = (fcStep E (fcOrthRestarted E) (i + 1) ib f).b := by
    show g.b + (-(E.dot ((gpDirection E i ib g).p ib) g.b / E.dot ((gpDirection E i ib g).p ib) (E.op ((gpDirection E i ib g).p ib)))) •
      E.op ((gpDirection E i ib g).p ib) = f.b + (-(E.dot ((fcStep E (fcOrthRestarted E) (i + 1) ib f).d ib) f.b /
        E.dot ((fcStep E (fcOrthRestarted E) (i + 1) ib f).d ib) (E.op ((fcStep E (fcOrthRestarted E) (i + 1) ib f).d ib)))) •
        E.op ((fcStep E (fcOrthRestarted E) (i + 1) ib f).d ib)
    rw [kdi, R.b]
  refine ⟨⟨hx, hb, ?_, ?_, ?_⟩, ?_⟩
  · intro s hs
    rw [kd]
    by_cases h : s = ib
    · subst h; rw [upd_same]; rfl
    · rw [upd_ne _ _ h, R.d s (by omega)]
      exact (gpDirection_other i ib g s h).symm
  · intro s hs
    show upd f.dad ib (E.dot ((fcStep E (fcOrthRestarted E) (i + 1) ib f).d ib) (E.op ((fcStep E (fcOrthRestarted E) (i + 1) ib f).d ib))) s =
      upd g.pp ib (E.dot ((gpDirection E i ib g).p ib) (E.op ((gpDirection E i ib g).p ib))) s
    rw [kdi]
    by_cases h : s = ib
    · subst h; rw [upd_same, upd_same]
    · rw [upd_ne _ _ h, upd_ne _ _ h, R.dad s (by omega)]
  · intro s hs
    show upd f.ad ib (E.op ((fcStep E (fcOrthRestarted E) (i + 1) ib f).d ib)) s = A ((gpDirection E i ib g).p s)
    rw [kdi]
    by_cases h : s = ib
    · subst h; rw [upd_same, H.op]
    · rw [upd_ne _ _ h, R.ad s (by omega), gpDirection_other i ib g s h]
  · show E.norm (gpMinimise E ib (gpDirection E i ib g)).b = E.norm (fcStep E (fcOrthRestarted E) (i + 1) ib f).b
    rw [hb]

theorem gpRel_inner (H : SpdProblem B W A E) (red : Rl) : ∀ n i ib (g : GpSt K X Rl) (f : FcSt K X Rl) (it : It Rl), GpFcRel A ib g f →
    ∀ R S, gpInner E red (min (m + 1 - ib) n) ib i g it = R → fcInner E red m (fcOrthRestarted E) n (i + 1) ib f it = S →
      R.2.1 = S.2.1 ∧ R.2.2.2 = S.2.2.2.2 ∧ R.1.x = S.1.x ∧ R.1.b = S.1.b ∧
      (S.2.2.2.2 = none → GpFcRel A S.2.2.2.1 R.1 S.1 ∧ S.2.2.1 = R.2.2.1 + 1 ∧ R.2.2.1 = i + min (m + 1 - ib) n ∧
        S.2.2.2.1 = ib + min (m + 1 - ib) n) := by
  intro n
  induction n with
  | zero =>
    rintro i ib g f it Q R S rfl rfl
    rw [Nat.min_zero]
    exact ⟨rfl, rfl, Q.x, Q.b, fun _ => ⟨Q, rfl, rfl, rfl⟩⟩
  | succ n ih =>
    rintro i ib g f it Q R S rfl rfl
    by_cases hb : ib ≤ m
    · have hmin : min (m + 1 - ib) (n + 1) = min (m + 1 - (ib + 1)) n + 1 := by omega
      rw [hmin, gpInner, fcInner, if_pos hb]
      dsimp only
      obtain ⟨Q', hd⟩ := gpRel_step (i := i) H Q
      rw [hd]
      cases hs : it.step E red (i + 1) (fcStep E (fcOrthRestarted E) (i + 1) ib f).def' with
      | none => exact ⟨rfl, rfl, Q'.x, Q'.b, fun h => (by cases h)⟩
      | some it' =>
        obtain ⟨a1, a2, a3, a4, a5⟩ := ih (i + 1) (ib + 1) _ _ it' Q' _ _ rfl rfl
        refine ⟨a1, a2, a3, a4, fun h => ?_⟩
        obtain ⟨b1, b2, b3, b4⟩ := a5 h
        exact ⟨b1, b2, by rw [b3]; omega, by rw [b4]; omega⟩
    · have hmin : min (m + 1 - ib) (n + 1) = 0 := by omega
      rw [hmin, fcInner, if_neg hb]
      exact ⟨rfl, rfl, Q.x, Q.b, fun _ => ⟨Q, rfl, rfl, rfl⟩⟩

/-- The observable part of a result. -/
def gpOut (r : GpSt K X Rl × It Rl × Option Exc) : X × X × It Rl × Option Exc := (r.1.x, r.1.b, r.2.1, r.2.2)

def fcOut (r : FcSt K X Rl × It Rl × Option Exc) : X × X × It Rl × Option Exc := (r.1.x, r.1.b, r.2.1, r.2.2)

/-- The inner loop followed by the rest. -/
theorem gpRel_pass (H : SpdProblem B W A E) (hm : 1 ≤ m) (red : Rl) (maxit fuel : Nat)
    (ih : ∀ i (g : GpSt K X Rl) (f : FcSt K X Rl) (it : It Rl), i ≤ maxit → it.converged = false → (i < maxit → GpFcRel A 1 g f) → g.x = f.x →
      g.b = f.b → (gpOuter E red maxit (m + 1) fuel i g it).map gpOut =
        (fcOuter E red maxit m (fcOrthRestarted E) (fcCycleRestarted m) fuel (i + 1) 1 f it).map fcOut)
    (i : Nat) (g : GpSt K X Rl) (f : FcSt K X Rl) (it : It Rl) (hi : i < maxit) (R : GpFcRel A 1 g f) :
    (gpOuter E red maxit (m + 1) (fuel + 1) i g it).map gpOut =
      (let r := fcInner E red m (fcOrthRestarted E) (maxit - i) (i + 1) 1 f it
       match r.2.2.2.2 with
       | some e => some (r.1, r.2.1, some e)
       | none => fcOuter E red maxit m (fcOrthRestarted E) (fcCycleRestarted m) fuel r.2.2.1 (fcCycleRestarted m r.1).1
           (fcCycleRestarted m r.1).2 r.2.1).map fcOut := by
  rw [gpOuter, if_pos hi]
  dsimp only
  have hmin : min (m + 1) (maxit - i + 1) - 1 = min (m + 1 - 1) (maxit - i) := by omega
  have hin := gpRel_inner (m := m) H red (maxit - i) i 1 g f it R _ _ rfl rfl
  rw [hmin]
  generalize gpInner E red (min (m + 1 - 1) (maxit - i)) 1 i g it = P at hin
  generalize fcInner E red m (fcOrthRestarted E) (maxit - i) (i + 1) 1 f it = Q at hin
  obtain ⟨g1, it1, i1, ex1⟩ := P
  obtain ⟨f1, it2, i2, ib2, ex2⟩ := Q
  obtain ⟨a1, a2, a3, a4, a5⟩ := hin
  dsimp only at a1 a2 a3 a4 a5 ⊢
  subst a1
  subst a2
  cases ex1 with
  | some e =>
    show some _ = some _
    simp only [gpOut, fcOut, a3, a4]
  | none =>
    obtain ⟨b1, b2, b3, b4⟩ := a5 rfl
    dsimp only
    by_cases hcv : it1.converged = true
    · rw [if_pos hcv]
      have : fcOuter E red maxit m (fcOrthRestarted E) (fcCycleRestarted m) fuel i2 (fcCycleRestarted m f1).1 (fcCycleRestarted m f1).2 it1 =
          some ((fcCycleRestarted m f1).2, it1, none) := by
        cases fuel with
        | zero => rw [fcOuter, if_neg (by rw [hcv]; simp)]
        | succ fuel => rw [fcOuter, if_neg (by rw [hcv]; simp)]
      rw [this]
      show some _ = some _
      simp only [gpOut, fcOut, a3, a4]
      rfl
    · rw [if_neg hcv, b2]
      have hcv : it1.converged = false := by simpa using hcv
      refine ih i1 _ _ it1 (by omega) hcv ?_ ?_ ?_
      · intro hlt
        have e : min (m + 1) (maxit - i + 1) = m + 1 := by omega
        rw [if_pos e]
        have hib : ib2 = m + 1 := by omega
        have hs : ∀ {Y : Type} (h : Nat → Y), upd (upd h 0 (h m)) m (h 0) 0 = h m := fun h => by
          rw [upd_ne _ _ (by omega), upd_same]
        refine ⟨a3, a4, ?_, ?_, ?_⟩
        · intro s hs0
          obtain rfl : s = 0 := by omega
          show upd (upd f1.d 0 (f1.d m)) m (f1.d 0) 0 = upd g1.p 0 (g1.p (m + 1 - 1)) 0
          rw [hs, upd_same]
          exact b1.d m (by omega)
        · intro s hs0
          obtain rfl : s = 0 := by omega
          show upd (upd f1.dad 0 (f1.dad m)) m (f1.dad 0) 0 = upd g1.pp 0 (g1.pp (m + 1 - 1)) 0
          rw [hs, upd_same]
          exact b1.dad m (by omega)
        · intro s hs0
          obtain rfl : s = 0 := by omega
          show upd (upd f1.ad 0 (f1.ad m)) m (f1.ad 0) 0 = A (upd g1.p 0 (g1.p (m + 1 - 1)) 0)
          rw [hs, upd_same]
          exact b1.ad m (by omega)
      · split <;> exact a3
      · split <;> exact a4

theorem gpRel_outer (H : SpdProblem B W A E) (hm : 1 ≤ m) (red : Rl) (maxit : Nat) : ∀ fuel i (g : GpSt K X Rl) (f : FcSt K X Rl) (it : It Rl),
    i ≤ maxit → it.converged = false → (i < maxit → GpFcRel A 1 g f) → g.x = f.x → g.b = f.b →
      (gpOuter E red maxit (m + 1) fuel i g it).map gpOut =
        (fcOuter E red maxit m (fcOrthRestarted E) (fcCycleRestarted m) fuel (i + 1) 1 f it).map fcOut := by
  intro fuel
  induction fuel with
  | zero =>
    intro i g f it hi hcv hR hx hb
    rw [gpOuter, fcOuter]
    by_cases h : i < maxit
    · rw [if_pos h, if_pos ⟨by omega, hcv⟩]; rfl
    · rw [if_neg h, if_neg (by omega)]
      show some _ = some _
      simp only [gpOut, fcOut, hx, hb]
  | succ fuel ih =>
    intro i g f it hi hcv hR hx hb
    by_cases h : i < maxit
    · rw [gpRel_pass H hm red maxit fuel ih i g f it h (hR h)]
      conv_rhs => rw [fcOuter, if_pos ⟨by omega, hcv⟩]
      rw [show maxit + 1 - (i + 1) = maxit - i by omega]
      rfl
    · rw [gpOuter, if_neg h, fcOuter, if_neg (by omega)]
      show some _ = some _
      simp only [gpOut, fcOut, hx, hb]

theorem same_run (H : SpdProblem B W A E) (hm : 1 ≤ m) (red : Rl) (maxit fuel : Nat) (x b : X) (e : Exit X Rl) (h1 : 1 ≤ maxit)
    (he : gpApply E red maxit (m + 1) (fuel + 1) x b = some e) (hne : e.it.i = 1 → e.it.converged = true → maxit = 1) :
    rfcgApply E red maxit m (fuel + 1) x b = some e := by
  unfold gpApply at he
  unfold rfcgApply fcApply
  dsimp only at he ⊢
  rw [show E.subOp (E.pre x b).1 (E.pre x b).2 = defect0 E x b from rfl] at he ⊢
  cases hs : It.start.step E red 0 (E.norm (defect0 E x b)) with
  | none => rw [hs] at he; exact he
  | some it =>
    rw [hs] at he
    dsimp only at he ⊢
    by_cases hcv : it.converged = true
    · rw [if_pos hcv] at he ⊢; exact he
    · rw [if_neg hcv] at he ⊢
      have hcv' : it.converged = false := by simpa using hcv
      have hR0 : GpFcRel A 0 (⟨(E.pre x b).1, defect0 E x b, fun _ => E.prec 0 (defect0 E x b), fun _ => 0, E.norm (defect0 E x b)⟩ : GpSt K X Rl)
          (fcStart E x b) := ⟨rfl, rfl, fun s h => absurd h (by omega), fun s h => absurd h (by omega), fun s h => absurd h (by omega)⟩
      obtain ⟨R1, hd⟩ := gpRel_step (i := 0) H hR0
      have e0 : gpDirection E 0 0 (⟨(E.pre x b).1, defect0 E x b, fun _ => E.prec 0 (defect0 E x b), fun _ => 0, E.norm (defect0 E x b)⟩ :
          GpSt K X Rl) = ⟨(E.pre x b).1, defect0 E x b, fun _ => E.prec 0 (defect0 E x b), fun _ => 0, E.norm (defect0 E x b)⟩ := by
        simp only [gpDirection, forRange_zero, GpSt.mk.injEq, true_and, and_true]
        funext s
        by_cases h : s = 0 <;> simp [upd, h]
      rw [e0] at R1 hd
      obtain ⟨n, rfl⟩ : ∃ n, maxit = n + 1 := ⟨maxit - 1, by omega⟩
      rw [hd] at he
      change (fcOuter E red (n + 1) m (fcOrthRestarted E) (fcCycleRestarted m) (fuel + 1) 1 0 (fcStart E x b) it).map _ = _
      rw [fcOuter, if_pos ⟨by omega, hcv'⟩, show n + 1 + 1 - 1 = n + 1 by omega, fcInner, if_pos (Nat.zero_le _)]
      generalize hg : gpMinimise E 0 (⟨(E.pre x b).1, defect0 E x b, fun _ => E.prec 0 (defect0 E x b), fun _ => 0,
        E.norm (defect0 E x b)⟩ : GpSt K X Rl) = g at *
      generalize hf : fcStep E (fcOrthRestarted E) (0 + 1) 0 (fcStart E x b) = f at *
      dsimp only
      cases hs1 : it.step E red 1 f.def' with
      | none =>
        rw [hs1] at he
        dsimp only at he ⊢
        rw [← he]
        simp only [Option.map_some, R1.x, R1.b]
      | some it1 =>
        rw [hs1] at he
        dsimp only at he ⊢
        by_cases hc1 : it1.converged = true
        · rw [if_pos hc1] at he
          obtain rfl := Option.some.inj he
          obtain rfl : n = 0 := by
            have := hne (step_fields hs1).1 hc1
            omega
          rw [show fcInner E red m (fcOrthRestarted E) 0 (1 + 1) (0 + 1) f it1 = (f, it1, 2, 1, none) from rfl]
          dsimp only
          have : fcOuter E red (0 + 1) m (fcOrthRestarted E) (fcCycleRestarted m) fuel 2 (fcCycleRestarted m f).1 (fcCycleRestarted m f).2 it1 =
              some ((fcCycleRestarted m f).2, it1, none) := by
            cases fuel with
            | zero => rw [fcOuter, if_neg (by omega)]
            | succ fuel => rw [fcOuter, if_neg (by omega)]
          rw [this]
          simp only [Option.map_some, R1.x, R1.b]
          rfl
        · rw [if_neg hc1] at he
          have hc1' : it1.converged = false := by simpa using hc1
          have tail : (gpOuter E red (n + 1) (m + 1) (fuel + 1) 1 g it1).map gpOut =
              (let r := fcInner E red m (fcOrthRestarted E) n (1 + 1) (0 + 1) f it1
               match r.2.2.2.2 with
               | some e => some (r.1, r.2.1, some e)
               | none => fcOuter E red (n + 1) m (fcOrthRestarted E) (fcCycleRestarted m) fuel r.2.2.1 (fcCycleRestarted m r.1).1
                   (fcCycleRestarted m r.1).2 r.2.1).map fcOut := by
            by_cases hn : 1 < n + 1
            · exact gpRel_pass H hm red (n + 1) fuel (gpRel_outer H hm red (n + 1) fuel) 1 g f it1 hn R1
            · obtain rfl : n = 0 := by omega
              rw [gpOuter, if_neg hn]
              rw [show fcInner E red m (fcOrthRestarted E) 0 (1 + 1) (0 + 1) f it1 = (f, it1, 2, 1, none) from rfl]
              dsimp only
              have : fcOuter E red (0 + 1) m (fcOrthRestarted E) (fcCycleRestarted m) fuel 2 (fcCycleRestarted m f).1 (fcCycleRestarted m f).2 it1 =
                  some ((fcCycleRestarted m f).2, it1, none) := by
                cases fuel with
                | zero => rw [fcOuter, if_neg (by omega)]
                | succ fuel => rw [fcOuter, if_neg (by omega)]
              rw [this]
              show some _ = some _
              simp only [gpOut, fcOut, R1.x, R1.b]
              rfl
          have conv : ∀ (o : Option (GpSt K X Rl × It Rl × Option Exc)) (o' : Option (FcSt K X Rl × It Rl × Option Exc)),
              o.map gpOut = o'.map fcOut →
              o.map (fun r => match r.2.2 with
                | some e => ({ x := r.1.x, b := r.1.b, it := r.2.1, exc := some e } : Exit X Rl)
                | none => { x := E.post r.1.x, b := r.1.b, it := r.2.1, exc := none }) =
              o'.map (fun r => match r.2.2 with
                | some e => ({ x := r.1.x, b := r.1.b, it := r.2.1, exc := some e } : Exit X Rl)
                | none => { x := E.post r.1.x, b := r.1.b, it := r.2.1, exc := none }) := by
            intro o o' h
            cases o with
            | none => cases o' with
              | none => rfl
              | some r' => cases h
            | some r => cases o' with
              | none => cases h
              | some r' =>
                have h := Option.some.inj h
                simp only [gpOut, fcOut, Prod.mk.injEq] at h
                obtain ⟨h1, h2, h3, h4⟩ := h
                show some _ = some _
                dsimp only
                rw [h1, h2, h3, h4]
          rw [← he]
          exact (conv _ _ tail).symm

end Gpcg

end Solver
end Istl
