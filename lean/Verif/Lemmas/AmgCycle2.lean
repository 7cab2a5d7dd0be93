import Verif.Lemmas.AmgCycle

/-! The multigrid recursion computes the specified cycle. -/

namespace Istl
namespace Amg
variable {K V : Type} [AddCommGroup V] [SMul K V]

/-- What one cycle on level `l` with `d` coarser levels does to the vectors. -/
structure Done (S : Setup K V) (l d : Nat) (f g h : Nat → V) (cv : Bool) (f' g' h' : Nat → V) (cv' : Bool) : Prop where
  same : ∀ i, i < l → f' i = f i ∧ g' i = g i ∧ h' i = h i
  upd : g' l = g l + mg S d l (h l)
  defect : 0 < d → h' l = h l - S.mat l (mg S d l (h l) - f' l)
  mono : cv' = true → cv = true
  conv : S.Converges → cv' = cv
  fine : l = 0 → 0 < d → cv' = true

/-- Cycle on level `l`: it succeeds, except that on the finest level failure of the coarse solver is reported. -/
def MgcOK (S : Setup K V) (d l : Nat) : Prop :=
  ∀ (f g h : Nat → V) (cv : Bool), (d = 0 → g l = 0) →
    (∃ f' g' h' cv', mgc S (d + 1) (mkS S.coarsest (curAt S.coarsest l) f g h cv) =
        .ok () (mkS S.coarsest (curAt S.coarsest l) f' g' h' cv') ∧ Done S l d f g h cv f' g' h' cv') ∨
    (l = 0 ∧ 0 < d ∧ (S.Converges → cv = false) ∧ ∃ f' g' h', mgc S (d + 1) (mkS S.coarsest (curAt S.coarsest l) f g h cv) =
        .throw .mathError (mkS S.coarsest (curAt S.coarsest l) f' g' h' false))

theorem mgc_coarsest (S : Setup K V) : MgcOK S 0 S.coarsest := by
  intro f g h cv hg
  left
  have hc : ∀ L l : Nat, (curAt L l).update = l := fun _ _ => rfl
  have hr : ∀ L l : Nat, (curAt L l).rhs = l := fun _ _ => rfl
  unfold mgc
  rw [Cmd.bind_ok (Cmd.get_apply _), if_pos (by rfl)]
  unfold coarseSolve
  have h2 : (curAt S.coarsest S.coarsest).update ≤ S.coarsest := le_refl _
  have h3 : (curAt S.coarsest S.coarsest).rhs ≤ S.coarsest := le_refl _
  rw [Cmd.bind_ok (getUpd_mk h2), Cmd.bind_ok (getRhs_mk h3)]
  rw [Cmd.bind_ok (setUpd_mk h2), Cmd.bind_ok (setRhs_mk h3), hc, hr, hg rfl]
  by_cases hb : (S.solve 0 (h S.coarsest)).2.2 = false
  · rw [if_pos hb]
    refine ⟨_, _, _, _, rfl, ⟨?_, ?_, ?_, ?_, ?_, ?_⟩⟩
    · intro i hi
      exact ⟨rfl, Function.update_of_ne (by omega) _ _, Function.update_of_ne (by omega) _ _⟩
    · rw [Function.update_self, hg rfl, zero_add]; rfl
    · omega
    · intro h; simp at h
    · intro hC; have := hC (h S.coarsest); rw [hb] at this; simp at this
    · omega
  · rw [if_neg hb]
    refine ⟨_, _, _, _, rfl, ⟨?_, ?_, ?_, ?_, ?_, ?_⟩⟩
    · intro i hi
      exact ⟨rfl, Function.update_of_ne (by omega) _ _, Function.update_of_ne (by omega) _ _⟩
    · rw [Function.update_self, hg rfl, zero_add]; rfl
    · omega
    · exact id
    · intro _; rfl
    · omega

theorem gamma_coarsest (S : Setup K V) {l : Nat} (hl : l + 1 = S.coarsest) (k : Nat) (f g h : Nat → V) (cv : Bool) (hg : g (l + 1) = 0) :
    ∃ f' g' h' cv', gammaLoop S (mgc S 1) k (mkS S.coarsest (curAt S.coarsest (l + 1)) f g h cv) =
        .ok () (mkS S.coarsest (curAt S.coarsest (l + 1)) f' g' h' cv') ∧ (∀ i, i ≤ l → f' i = f i ∧ g' i = g i ∧ h' i = h i) ∧
        (g' (l + 1) = if k = 0 then 0 else (S.solve 0 (h (l + 1))).1) ∧ (cv' = true → cv = true) ∧ (S.Converges → cv' = cv) := by
  cases k with
  | zero => exact ⟨f, g, h, cv, rfl, fun _ _ => ⟨rfl, rfl, rfl⟩, by rw [if_pos rfl, hg], id, fun _ => rfl⟩
  | succ k =>
    have M := mgc_coarsest S
    rw [← hl] at M
    rcases M f g h cv (fun _ => hg) with ⟨f', g', h', cv', e, D⟩ | ⟨h0, _⟩
    swap
    · omega
    refine ⟨f', g', h', cv', ?_, ?_, ?_, D.mono, D.conv⟩
    · unfold gammaLoop
      rw [zero_add] at e
      rw [Cmd.bind_ok e, Cmd.bind_ok (Cmd.get_apply _), if_pos (by rw [mkS_cur]; exact hl)]
      rfl
    · intro i hi; exact D.same i (by omega)
    · rw [if_neg (by omega), D.upd, hg, zero_add]; rfl

theorem gamma_spec (S : Setup K V) (hA : ∀ l x y, S.mat l (x + y) = S.mat l x + S.mat l y) {l d : Nat} (hl : l + 1 + (d + 1) = S.coarsest)
    (M : MgcOK S (d + 1) (l + 1)) : ∀ (k : Nat) (f g h : Nat → V) (cv : Bool) (b : V), h (l + 1) = b - S.mat (l + 1) (g (l + 1)) →
    ∃ f' g' h' cv', gammaLoop S (mgc S (d + 1 + 1)) k (mkS S.coarsest (curAt S.coarsest (l + 1)) f g h cv) =
        .ok () (mkS S.coarsest (curAt S.coarsest (l + 1)) f' g' h' cv') ∧ (∀ i, i ≤ l → f' i = f i ∧ g' i = g i ∧ h' i = h i) ∧
        g' (l + 1) = relax (S.mat (l + 1)) (mg S (d + 1) (l + 1)) b k (g (l + 1)) ∧ (cv' = true → cv = true) ∧
        (S.Converges → cv' = cv) := by
  intro k
  induction k with
  | zero => intro f g h cv b hb; exact ⟨f, g, h, cv, rfl, fun _ _ => ⟨rfl, rfl, rfl⟩, rfl, id, fun _ => rfl⟩
  | succ k ih =>
    intro f g h cv b hb
    rcases M f g h cv (by omega) with ⟨f1, g1, h1, cv1, e, D⟩ | ⟨h0, _⟩
    swap
    · omega
    unfold gammaLoop
    rw [Cmd.bind_ok e, Cmd.bind_ok (Cmd.get_apply _), if_neg (by rw [mkS_cur]; simp only [curAt]; omega)]
    have hg1 : g1 (l + 1) = g (l + 1) + mg S (d + 1) (l + 1) (b - S.mat (l + 1) (g (l + 1))) := by rw [D.upd, hb]
    by_cases hk : 0 < k
    · rw [if_pos hk, Cmd.bind_ok (updateDefect_mk S (by simp only [curAt]; omega) (by simp only [curAt]; omega))]
      have c1 : (curAt S.coarsest (l + 1)).rhs = l + 1 := rfl
      have c2 : (curAt S.coarsest (l + 1)).lhs = l + 1 := rfl
      have c3 : (curAt S.coarsest (l + 1)).matrix = l + 1 := rfl
      rw [c1, c2, c3]
      obtain ⟨f', g', h', cv', e', p1, p2, p3, p4⟩ := ih f1 g1
        (Function.update h1 (l + 1) (h1 (l + 1) - S.mat (l + 1) (f1 (l + 1)))) cv1 b (by
          rw [Function.update_self, D.defect (by omega), hg1, hb, hA, map_sub_of_add (hA (l + 1))]
          abel)
      refine ⟨f', g', h', cv', e', ?_, ?_, fun q => D.mono (p3 q), fun C => (p4 C).trans (D.conv C)⟩
      · intro i hi
        obtain ⟨q1, q2, q3⟩ := p1 i hi
        obtain ⟨r1, r2, r3⟩ := D.same i (by omega)
        refine ⟨q1.trans r1, q2.trans r2, ?_⟩
        rw [q3, Function.update_of_ne (by omega)]
        exact r3
      · rw [p2, hg1]; rfl
    · have hk0 : k = 0 := by omega
      subst hk0
      rw [if_neg hk]
      refine ⟨f1, g1, h1, cv1, rfl, fun i hi => D.same i (by omega), ?_, D.mono, D.conv⟩
      rw [hg1]; rfl

theorem mgc_spec (S : Setup K V) (hA : ∀ l x y, S.mat l (x + y) = S.mat l x + S.mat l y) :
    ∀ (d l : Nat), l + d = S.coarsest → MgcOK S d l := by
  intro d
  induction d with
  | zero =>
    intro l hl
    have : l = S.coarsest := by omega
    rw [this]
    exact mgc_coarsest S
  | succ d ih =>
    intro l hl f g h cv _
    have hlt : l < S.coarsest := by omega
    have A0 := map_zero_of_add (hA l)
    obtain ⟨f1, hf1, e1⟩ := pre_times S hA hlt cv (h l) S.preSteps f g h 0 (by rw [A0, sub_zero])
    rw [sub_zero] at e1
    let u := relax (S.mat l) (S.pre l 0) (h l) S.preSteps 0
    have hu : relax (S.mat l) (S.pre l 0) (h l) S.preSteps 0 = u := rfl
    rw [hu] at e1
    let r := S.restr l (h l - S.mat l u)
    -- on the coarse level
    have e2 := moveToCoarse_mk S hlt f1 (Function.update g l (g l + u)) (Function.update h l (h l - S.mat l u)) cv
    rw [Function.update_self] at e2
    let c := if d = 0 then (if S.gamma = 0 then 0 else (S.solve 0 r).1) else relax (S.mat (l + 1)) (mg S d (l + 1)) r S.gamma 0
    have e3 : ∃ f' g' h' cv', gammaLoop S (mgc S (d + 1)) S.gamma (mkS S.coarsest (curAt S.coarsest (l + 1)) f1
          (Function.update (Function.update g l (g l + u)) (l + 1) 0)
          (Function.update (Function.update h l (h l - S.mat l u)) (l + 1) (S.restr l (h l - S.mat l u))) cv) =
          .ok () (mkS S.coarsest (curAt S.coarsest (l + 1)) f' g' h' cv') ∧
        (∀ i, i ≤ l → f' i = f1 i ∧ g' i = Function.update g l (g l + u) i ∧ h' i = Function.update h l (h l - S.mat l u) i) ∧
        g' (l + 1) = c ∧ (cv' = true → cv = true) ∧ (S.Converges → cv' = cv) := by
      have adj : ∀ (p q : Nat → V) (v : V) (i : Nat), i ≤ l → p i = Function.update q (l + 1) v i → p i = q i := by
        intro p q v i hi hp
        rw [hp, Function.update_of_ne (by omega)]
      cases d with
      | zero =>
        obtain ⟨f', g', h', cv', q, q1, q2, q3, q4⟩ := gamma_coarsest S (l := l) (by omega) S.gamma f1
          (Function.update (Function.update g l (g l + u)) (l + 1) 0)
          (Function.update (Function.update h l (h l - S.mat l u)) (l + 1) (S.restr l (h l - S.mat l u))) cv (Function.update_self ..)
        refine ⟨f', g', h', cv', q, ?_, ?_, q3, q4⟩
        · intro i hi
          obtain ⟨a1, a2, a3⟩ := q1 i hi
          exact ⟨a1, adj _ _ _ i hi a2, adj _ _ _ i hi a3⟩
        · rw [q2, Function.update_self]; rfl
      | succ d =>
        obtain ⟨f', g', h', cv', q, q1, q2, q3, q4⟩ := gamma_spec S hA (l := l) (d := d) (by omega) (ih (l + 1) (by omega)) S.gamma f1
          (Function.update (Function.update g l (g l + u)) (l + 1) 0)
          (Function.update (Function.update h l (h l - S.mat l u)) (l + 1) (S.restr l (h l - S.mat l u))) cv r (by
            rw [Function.update_self, Function.update_self, map_zero_of_add (hA (l + 1)), sub_zero])
        refine ⟨f', g', h', cv', q, ?_, ?_, q3, q4⟩
        · intro i hi
          obtain ⟨a1, a2, a3⟩ := q1 i hi
          exact ⟨a1, adj _ _ _ i hi a2, adj _ _ _ i hi a3⟩
        · rw [q2, Function.update_self]; rfl
    obtain ⟨f2, g2, h2, cv2, e3, q1, q2, q3, q4⟩ := e3
    obtain ⟨g3, p1, p2, e4⟩ := moveToFine_mk S hlt f2 g2 h2 cv2
    rw [q2] at p2 e4
    have hgl : g2 l = g l + u := by rw [(q1 l (le_refl _)).2.1, Function.update_self]
    have hhl : h2 l = h l - S.mat l u := by rw [(q1 l (le_refl _)).2.2, Function.update_self]
    have hmg : mg S (d + 1) l (h l) = relax (S.mat l) (S.post l 0) (h l) S.postSteps (u + S.prol l (S.damp • c)) := rfl
    have key : mgc S (d + 1 + 1) (mkS S.coarsest (curAt S.coarsest l) f g h cv) = (do
        checkCoarse
        times (postStep S) S.postSteps : MG V Unit)
        (mkS S.coarsest (curAt S.coarsest l) (Function.update f2 l (S.prol l (S.damp • c))) g3 h2 cv2) := by
      conv_lhs => unfold mgc
      rw [Cmd.bind_ok (Cmd.get_apply _), if_neg (by rw [mkS_cur]; simp only [curAt]; omega),
        Cmd.bind_ok e1, Cmd.bind_ok e2, Cmd.bind_ok e3, Cmd.bind_ok e4]
    rw [key]
    unfold checkCoarse
    by_cases hf : l = 0 ∧ cv2 = false
    · right
      refine ⟨hf.1, by omega, fun C => by rw [← q4 C]; exact hf.2, ?_⟩
      rw [hf.2]
      refine ⟨Function.update f2 l (S.prol l (S.damp • c)), g3, h2, Cmd.bind_throw (s' := mkS S.coarsest (curAt S.coarsest l) _ _ _ false) ?_⟩
      rw [Cmd.bind_ok (Cmd.get_apply _), if_pos ⟨hf.1, rfl⟩]
      rfl
    · left
      obtain ⟨f5, hf5, e5⟩ := post_times S hA hlt cv2 (h l) S.postSteps (Function.update f2 l (S.prol l (S.damp • c))) g3 h2
        (u + S.prol l (S.damp • c)) (by rw [Function.update_self, add_sub_cancel_right, hhl])
      refine ⟨f5, _, _, cv2, (Cmd.bind_ok (s' := mkS S.coarsest (curAt S.coarsest l) _ _ _ cv2) (a := ()) ?_).trans e5, ?_⟩
      · rw [Cmd.bind_ok (Cmd.get_apply _)]
        refine (congrFun (if_neg hf) _).trans ?_
        rfl
      · refine ⟨?_, ?_, ?_, q3, q4, ?_⟩
        · intro i hi
          have hne : i ≠ l := by omega
          obtain ⟨a1, a2, a3⟩ := q1 i (by omega)
          rw [Function.update_of_ne hne] at a2 a3 ⊢
          rw [Function.update_of_ne hne]
          refine ⟨?_, ?_, a3⟩
          · rw [hf5 i hne, Function.update_of_ne hne, a1, hf1 i hne]
          · rw [p1 i (by omega) hne, a2]
        · rw [Function.update_self, p2, hgl, hmg]
          abel
        · intro _
          rw [Function.update_self, hmg]
        · intro h0 _
          by_contra hc
          exact hf ⟨h0, by simpa using hc⟩

theorem state_mk (S : Setup K V) (s : State V) (h : s.Sized S) : ∃ f g h, s = mkS S.coarsest s.cur f g h s.conv := by
  obtain ⟨h1, h2, h3⟩ := h
  have key : ∀ l : List V, l.length = S.coarsest + 1 → (List.range (S.coarsest + 1)).map (fun i => l.getD i 0) = l := by
    intro l hl
    apply List.ext_getElem?
    intro i
    by_cases hi : i < S.coarsest + 1
    · rw [List.getElem?_map, List.getElem?_range hi]
      simp [List.getD, hl, hi]
    · rw [List.getElem?_eq_none (by simp; omega), List.getElem?_eq_none (by omega)]
  refine ⟨fun i => s.lhs.getD i 0, fun i => s.upd.getD i 0, fun i => s.rhs.getD i 0, ?_⟩
  unfold mkS
  rw [key _ h1, key _ h2, key _ h3]

theorem mkS_sized (S : Setup K V) (c : Cursor) (f g h : Nat → V) (cv : Bool) : (mkS S.coarsest c f g h cv).Sized S := by
  simp [State.Sized, mkS]

end Amg
end Istl
