import Verif.Lemmas.HierList3

namespace Istl
namespace HList

variable {T : Type}

theorem reach_mono {el el' : Nat → El} {n : Nat} (hz : ∀ a, n ≤ a → (el a).finer = none) (he : ∀ a, a < n → (el' a).finer = (el a).finer)
    {r e : Nat} (h : Reach el r e) : Reach el' r e := by
  unfold Reach at h ⊢
  induction h with
  | refl => exact .refl
  | tail hp hab ih =>
    rename_i a b
    refine ih.tail ?_
    by_cases ha : a < n
    · rw [he a ha]; exact hab
    · rw [hz a (by omega)] at hab; cases hab

theorem alive_mono {s t : St T} {n : Nat} (hz : ∀ a, n ≤ a → (s.el a).finer = none) (he : ∀ a, a < n → t.el a = s.el a)
    (hh : t.hs = s.hs) (hi : t.its = s.its) {e : Nat} (h : Alive s e) : Alive t e := by
  have key : ∀ {r}, Reach s.el r e → Reach t.el r e := fun h => reach_mono hz (fun a ha => by rw [he a ha]) h
  rcases h with ⟨g, G, r, h1, h2, h3⟩ | ⟨i, r, h1, h2⟩
  · exact Or.inl ⟨g, G, r, by rw [hh, h1], h2, key h3⟩
  · exact Or.inr ⟨i, r, by rw [hi, h1], key h2⟩

/-- Linked by `coarser_`, from fine to coarse. -/
def Up (el : Nat → El) : List Nat → Prop
  | [] => True
  | e :: us => (el e).coarser = us.head? ∧ (el e).obj ≠ none ∧ Up el us

theorem Up.congr {el el' : Nat → El} : ∀ {us : List Nat}, Up el us → (∀ e ∈ us, el' e = el e) → Up el' us
  | [], _, _ => trivial
  | e :: us, h, he => ⟨by rw [he e (by simp)]; exact h.1, by rw [he e (by simp)]; exact h.2.1, h.2.2.congr (fun x hx => he x (by simp [hx]))⟩

/-- Number of the next object after a level has been copied. -/
def nextOb (el : Nat → El) (e nb : Nat) : Nat := nb + 1 + if (el e).red.isSome then 1 else 0

/-- The copies of the levels `us`, from fine to coarse, in the elements `cur, cur+1, ...` with the objects `nb, ...`. -/
def Copied (el : Nat → El) (ob : Nat → T) (t : St T) : List Nat → Nat → Option Nat → Nat → Prop
  | [], _, _, _ => True
  | e :: us, cur, fin, nb =>
    t.el cur = ⟨if us = [] then none else some (cur + 1), fin, some nb, if (el e).red.isSome then some (nb + 1) else none⟩ ∧
      (∀ x, (el e).obj = some x → t.ob nb = ob x) ∧ (∀ x, (el e).red = some x → t.ob (nb + 1) = ob x) ∧
      Copied el ob t us (cur + 1) (some cur) (nextOb el e nb)

def endOb (el : Nat → El) : List Nat → Nat → Nat
  | [], nb => nb
  | e :: us, nb => endOb el us (nextOb el e nb)

theorem le_endOb (el : Nat → El) : ∀ (us : List Nat) (nb : Nat), nb ≤ endOb el us nb
  | [], nb => le_refl _
  | e :: us, nb => le_trans (by unfold nextOb; omega) (le_endOb el us (nextOb el e nb))

/-- One round. -/
theorem copyEl_ok {s : St T} {oc cur : Nat} {fin : Option Nat} (hne : oc ≠ cur) (ho : (s.el oc).obj ≠ none) (hr : ∀ x, (s.el oc).red = some x → x < s.nOb)
    (hz : s.el cur = {}) :
    ∃ t, copyEl oc cur fin s = .ok t ∧ t.nOb = nextOb s.el oc s.nOb ∧ t.nEl = s.nEl ∧ t.hs = s.hs ∧ t.its = s.its ∧ t.nH = s.nH ∧ t.nI = s.nI ∧
      (∀ a, a ≠ cur → t.el a = s.el a) ∧
      t.el cur = ⟨none, fin, some s.nOb, if (s.el oc).red.isSome then some (s.nOb + 1) else none⟩ ∧ (∀ o, o < s.nOb → t.ob o = s.ob o) ∧
      (∀ x, (s.el oc).obj = some x → t.ob s.nOb = s.ob x) ∧ (∀ x, (s.el oc).red = some x → t.ob (s.nOb + 1) = s.ob x) := by
  cases hx : (s.el oc).obj with
  | none => exact absurd hx ho
  | some x =>
    have e1 : (upd s.el cur ({ s.el cur with obj := some s.nOb, finer := fin } : El)) oc = s.el oc := upd_ne _ _ hne
    cases hred : (s.el oc).red with
    | none =>
      refine ⟨setEl cur (fun e => { e with obj := some s.nOb, finer := fin }) (newObj (s.ob x) s), ?_, ?_, rfl, rfl, rfl, rfl, rfl, ?_, ?_, ?_, ?_, ?_⟩
      · simp only [copyEl, hx, deref, Res.ok_bind]
        show (match (upd s.el cur ({ s.el cur with obj := some s.nOb, finer := fin } : El) oc).red with | none => _ | some x => _) = _
        rw [e1, hred]
      · show s.nOb + 1 = _; simp [nextOb, hred]
      · intro a ha; exact upd_ne _ _ ha
      · show upd s.el cur _ cur = _
        rw [upd_same]
        show ({ s.el cur with obj := some s.nOb, finer := fin } : El) = _
        rw [hz]; simp
      · intro o h; show upd s.ob s.nOb _ o = _; rw [upd_ne _ _ (by omega)]
      · intro y hy; injection hy with hy; subst hy; exact upd_same _ _ _
      · intro y hy; cases hy
    | some r =>
      have hrlt := hr r hred
      refine ⟨setEl cur (fun e => { e with red := some (s.nOb + 1) }) (newObj (s.ob r) (setEl cur (fun e => { e with obj := some s.nOb, finer := fin }) (newObj (s.ob x) s))),
        ?_, ?_, rfl, rfl, rfl, rfl, rfl, ?_, ?_, ?_, ?_, ?_⟩
      · simp only [copyEl, hx, deref, Res.ok_bind]
        show (match (upd s.el cur ({ s.el cur with obj := some s.nOb, finer := fin } : El) oc).red with | none => _ | some x => _) = _
        rw [e1, hred]
        show Res.ok (setEl cur _ (newObj (upd s.ob s.nOb (s.ob x) r) _)) = _
        rw [upd_ne _ _ (by omega)]; rfl
      · show s.nOb + 1 + 1 = _; simp [nextOb, hred]
      · intro a ha
        show upd (upd s.el cur _) cur _ a = _
        rw [upd_ne _ _ ha, upd_ne _ _ ha]
      · show upd (upd s.el cur _) cur _ cur = _
        rw [upd_same]
        show ({ upd s.el cur _ cur with red := some (s.nOb + 1) } : El) = _
        rw [upd_same]
        show ({ s.el cur with obj := some s.nOb, finer := fin, red := some (s.nOb + 1) } : El) = _
        rw [hz]; simp
      · intro o h
        show upd (upd s.ob s.nOb _) (s.nOb + 1) _ o = _
        rw [upd_ne _ _ (by omega), upd_ne _ _ (by omega)]
      · intro y hy
        injection hy with hy; subst hy
        show upd (upd s.ob s.nOb _) (s.nOb + 1) _ s.nOb = _
        rw [upd_ne _ _ (by omega), upd_same]
      · intro y hy
        injection hy with hy; subst hy
        exact upd_same _ _ _

theorem Copied.congr {el el' : Nat → El} {ob ob' : Nat → T} {t : St T} : ∀ {us : List Nat} {cur : Nat} {fin : Option Nat} {nb : Nat},
    Copied el' ob' t us cur fin nb → (∀ e ∈ us, el' e = el e ∧ (∀ x, (el e).obj = some x → ob' x = ob x) ∧ (∀ x, (el e).red = some x → ob' x = ob x)) →
      Copied el ob t us cur fin nb
  | [], _, _, _, _, _ => trivial
  | e :: us, cur, fin, nb, h, he => by
    obtain ⟨h1, h2, h3⟩ := he e (by simp)
    obtain ⟨g1, g2, g3, g4⟩ := h
    rw [h1] at g1 g2 g3
    refine ⟨g1, fun x hx => by rw [g2 x hx, h2 x hx], fun x hx => by rw [g3 x hx, h3 x hx], ?_⟩
    have : nextOb el' e nb = nextOb el e nb := by simp [nextOb, h1]
    rw [← this]
    exact g4.congr (fun x hx => he x (by simp [hx]))

theorem copyLoop_none (fuel cur : Nat) (fin : Option Nat) (s : St T) : copyLoop fuel none cur fin s = .ok (s, cur) := by
  cases fuel with
  | zero => rfl
  | succ n => rw [copyLoop, lock_none]

/-- The loop. -/
theorem copyLoop_ok : ∀ (us : List Nat) (e fuel cur : Nat) (fin : Option Nat) (s : St T), us.length < fuel → Up s.el (e :: us) →
    (∀ x ∈ e :: us, x < cur) → (∀ x ∈ e :: us, Alive s x) → s.nEl = cur + 1 → (∀ a, cur ≤ a → s.el a = {}) →
    (∀ x ∈ e :: us, (∀ o, (s.el x).obj = some o → o < s.nOb) ∧ ∀ o, (s.el x).red = some o → o < s.nOb) →
    ∃ t, copyLoop fuel (some e) cur fin s = .ok (t, cur + us.length) ∧ Copied s.el s.ob t (e :: us) cur fin s.nOb ∧
      t.nEl = cur + us.length + 1 ∧ t.nOb = endOb s.el (e :: us) s.nOb ∧ (∀ a, a < cur → t.el a = s.el a) ∧ (∀ a, t.nEl ≤ a → t.el a = {}) ∧
      (∀ o, o < s.nOb → t.ob o = s.ob o) ∧ t.hs = s.hs ∧ t.its = s.its ∧ t.nH = s.nH ∧ t.nI = s.nI := by
  intro us
  induction us with
  | nil =>
    intro e fuel cur fin s hf hu hlt hal hn hz hb
    obtain ⟨n, rfl⟩ : ∃ n, fuel = n + 1 := ⟨fuel - 1, by simp at hf; omega⟩
    have hec : e < cur := hlt e (by simp)
    obtain ⟨t, h1, h2, h3, h4, h5, h6, h7, h8, h9, h10, h11, h12⟩ := copyEl_ok (fin := fin) (s := s) (oc := e) (cur := cur) (by omega) hu.2.1
      (fun x hx => (hb e (by simp)).2 x hx) (hz cur (le_refl _))
    refine ⟨t, ?_, ⟨by rw [h9, if_pos rfl], h11, h12, trivial⟩, by rw [h3, hn]; rfl, h2, fun a ha => h8 a (by omega), ?_, h10, h4, h5, h6, h7⟩
    · rw [copyLoop, lock_alive (hal e (by simp))]
      simp only [h1, Res.ok_bind]
      rw [h8 e (by omega), show (s.el e).coarser = none from hu.1, lock_none]
      exact copyLoop_none _ _ _ _
    · intro a ha
      rw [h3, hn] at ha
      rw [h8 a (by omega)]; exact hz a (by omega)
  | cons f us ih =>
    intro e fuel cur fin s hf hu hlt hal hn hz hb
    obtain ⟨n, rfl⟩ : ∃ n, fuel = n + 1 := ⟨fuel - 1, by simp at hf; omega⟩
    have hec : e < cur := hlt e (by simp)
    have hfc : f < cur := hlt f (by simp)
    obtain ⟨t, h1, h2, h3, h4, h5, h6, h7, h8, h9, h10, h11, h12⟩ := copyEl_ok (fin := fin) (s := s) (oc := e) (cur := cur) (by omega) hu.2.1
      (fun x hx => (hb e (by simp)).2 x hx) (hz cur (le_refl _))
    have hzf : ∀ a, cur ≤ a → (s.el a).finer = none := fun a ha => by rw [hz a ha]
    have halt : ∀ x ∈ e :: f :: us, Alive t x := fun x hx => alive_mono hzf (fun a ha => h8 a (by omega)) h4 h5 (hal x hx)
    have hcoa : (s.el e).coarser = some f := hu.1
    set u : St T := setEl cur (fun e => { e with coarser := some t.nEl }) (newEl {} t) with hu'
    have hnel : t.nEl = cur + 1 := by rw [h3, hn]
    have uel : ∀ a, a < cur → u.el a = s.el a := by
      intro a ha
      show upd (upd t.el t.nEl _) cur _ a = _
      rw [upd_ne _ _ (by omega), upd_ne _ _ (by omega), h8 a (by omega)]
    have ucur : u.el cur = { t.el cur with coarser := some (cur + 1) } := by
      show upd (upd t.el t.nEl _) cur _ cur = _
      rw [upd_same]
      show ({ upd t.el t.nEl _ cur with coarser := some t.nEl } : El) = _
      rw [upd_ne _ _ (by omega), hnel]
    have uz : ∀ a, cur + 1 ≤ a → u.el a = {} := by
      intro a ha
      show upd (upd t.el t.nEl _) cur _ a = _
      rw [upd_ne _ _ (by omega)]
      by_cases hx : a = t.nEl
      · rw [hx, upd_same]
      · rw [upd_ne _ _ hx, h8 a (by omega)]; exact hz a (by omega)
    have uob : u.nOb = nextOb s.el e s.nOb := h2
    have hob : s.nOb ≤ u.nOb := by rw [uob]; unfold nextOb; omega
    obtain ⟨w, k1, k2, k3, k4, k5, k6, k7, k8, k9, k10, k11⟩ := ih f n (cur + 1) (some cur) u (by simp at hf; exact hf)
      (hu.2.2.congr (fun x hx => uel x (hlt x (by simp at hx ⊢; tauto))))
      (fun x hx => Nat.lt_succ_of_lt (hlt x (by simp at hx ⊢; tauto)))
      (fun x hx => alive_mono (n := cur) hzf uel h4 h5 (hal x (by simp at hx ⊢; tauto)))
      (by show t.nEl + 1 = _; rw [hnel]) uz (by
        intro x hx
        rw [uel x (hlt x (by simp at hx ⊢; tauto))]
        have := hb x (by simp at hx ⊢; tauto)
        exact ⟨fun o ho => lt_of_lt_of_le (this.1 o ho) hob, fun o ho => lt_of_lt_of_le (this.2 o ho) hob⟩)
    refine ⟨w, ?_, ⟨?_, ?_, ?_, ?_⟩, ?_, ?_, ?_, k6, ?_, k8.trans h4, k9.trans h5, k10.trans h6, k11.trans h7⟩
    · rw [copyLoop, lock_alive (hal e (by simp))]
      simp only [h1, Res.ok_bind]
      rw [h8 e (by omega), hcoa, lock_alive (halt f (by simp))]
      show copyLoop n (u.el e).coarser t.nEl (some cur) u = _
      rw [uel e hec, hcoa, hnel, k1]
      simp; omega
    · rw [k5 cur (by omega), ucur, h9]; rfl
    · intro x hx
      rw [k7 _ (by rw [uob]; unfold nextOb; omega)]; exact h11 x hx
    · intro x hx
      rw [k7 _ (by rw [uob]; unfold nextOb; simp [hx])]; exact h12 x hx
    · rw [← uob]
      refine k2.congr (fun x hx => ?_)
      have := hb x (by simp at hx ⊢; tauto)
      refine ⟨uel x (hlt x (by simp at hx ⊢; tauto)), fun o ho => h10 o (this.1 o ho), fun o ho => h10 o (this.2 o ho)⟩
    · rw [k3]; simp; omega
    · rw [k4, uob]
      show endOb u.el (f :: us) _ = endOb s.el (f :: us) _
      have : ∀ (l : List Nat) (nb : Nat), (∀ x ∈ l, u.el x = s.el x) → endOb u.el l nb = endOb s.el l nb := by
        intro l
        induction l with
        | nil => intro nb _; rfl
        | cons a l ihl =>
          intro nb hh
          show endOb u.el l (nextOb u.el a nb) = endOb s.el l (nextOb s.el a nb)
          rw [show nextOb u.el a nb = nextOb s.el a nb by simp [nextOb, hh a (by simp)]]
          exact ihl _ (fun x hx => hh x (by simp [hx]))
      exact this _ _ (fun x hx => uel x (hlt x (by simp at hx ⊢; tauto)))
    · intro a ha
      rw [k5 a (by omega), uel a ha]
    · intro o ho
      rw [k7 o (by omega)]; exact h10 o ho

end HList
end Istl
