import Verif.Lemmas.HierList5

namespace Istl
namespace HList

variable {T : Type}

/-- Calls that change or end the hierarchy object `h`. -/
def hcg (op : Op T) (h : Nat) : Prop := match op with
  | .destroy g => g = h
  | .add g _ => g = h
  | _ => False

/-- Calls that change the element `a`. -/
def ecg (s : St T) (op : Op T) (a : Nat) : Prop := match op with
  | .addRed g _ => ∃ G, s.hs g = some G ∧ G.coarsest = some a
  | .add g _ => ∃ G, s.hs g = some G ∧ G.coarsest = some a
  | .itAdd i _ => s.its i = some (some a)
  | .itDel i => s.its i = some (some a)
  | _ => False

/-- Calls that change the object `o`. -/
def ocg (op : Op T) (o : Nat) : Prop := match op with
  | .write p _ => p = o
  | _ => False

structure Eff (s t : St T) (op : Op T) : Prop where
  ok : Ok t
  fin : ∀ a, a < s.nEl → (t.el a).finer = (s.el a).finer ∧ (t.el a).obj = (s.el a).obj ∧ ∀ f, (s.el a).coarser = some f → (t.el a).coarser = some f
  hs : ∀ h, ¬ hcg op h → s.hs h ≠ none → t.hs h = s.hs h
  el : ∀ a, a < s.nEl → ¬ ecg s op a → t.el a = s.el a
  its : ∀ i, ¬ Op.Moves i op → s.its i ≠ none → t.its i = s.its i
  ob : ∀ o, o < s.nOb → ¬ ocg op o → t.ob o = s.ob o
  nOb : s.nOb ≤ t.nOb

theorem eff_of {s t : St T} {op : Op T} (hok : Ok t) (he : t.el = s.el) (hh : ∀ h, ¬ hcg op h → s.hs h ≠ none → t.hs h = s.hs h)
    (hi : ∀ i, ¬ Op.Moves i op → s.its i ≠ none → t.its i = s.its i) (ho : ∀ o, o < s.nOb → ¬ ocg op o → t.ob o = s.ob o) (hn : s.nOb ≤ t.nOb) :
    Eff s t op :=
  ⟨hok, fun a _ => by rw [he]; exact ⟨rfl, rfl, fun _ h => h⟩, hh, fun a _ _ => by rw [he], hi, ho, hn⟩

theorem newH_hs {s : St T} (hI : Ok s) (H : Hier) {h : Nat} (h0 : s.hs h ≠ none) : (newH H s).hs h = s.hs h := by
  show upd s.hs s.nH _ h = _
  refine upd_ne _ _ (fun e => ?_)
  rw [e, hI.hs_fresh _ (le_refl _)] at h0; exact h0 rfl

theorem newIt_its {s : St T} (hI : Ok s) (e : Option Nat) {i : Nat} (h0 : s.its i ≠ none) : (newIt e s).its i = s.its i := by
  show upd s.its s.nI _ i = _
  refine upd_ne _ _ (fun e => ?_)
  rw [e, hI.it_fresh _ (le_refl _)] at h0; exact h0 rfl

theorem coa_alloc {s : St T} (hI : Ok s) {e c : Nat} (h : (s.el e).coarser = some c) : c < s.nEl := by
  by_contra hc
  have := hI.coa_fin c e h
  rw [hI.fresh c (by omega)] at this; cases this

theorem lock_some {s : St T} {w : Option Nat} {e : Nat} (h : lock s w = some e) : w = some e := by
  cases w with
  | none => cases h
  | some x =>
    unfold lock at h
    dsimp only at h
    split at h
    · exact h
    · cases h

theorem setRed_eff {s : St T} {op : Op T} {e : Nat} (o : Option Nat) (hok : Ok (setEl e (fun x => { x with red := o }) s)) (hc : ecg s op e) :
    Eff s (setEl e (fun x => { x with red := o }) s) op := by
  refine ⟨hok, fun a _ => ?_, fun _ _ _ => rfl, fun a _ h => ?_, fun _ _ _ => rfl, fun _ _ _ => rfl, le_refl _⟩
  · show (upd s.el e _ a).finer = _ ∧ (upd s.el e _ a).obj = _ ∧ ∀ f, _ → (upd s.el e _ a).coarser = some f
    by_cases ha : a = e
    · rw [ha, upd_same]; exact ⟨rfl, rfl, fun _ h => h⟩
    · rw [upd_ne _ _ ha]; exact ⟨rfl, rfl, fun _ h => h⟩
  · show upd s.el e _ a = _
    refine upd_ne _ _ (fun ha => h (by rw [ha]; exact hc))

/-- Every call: it works exactly if its arguments exist, and this is its effect. -/
theorem step_eff {s : St T} (hI : Ok s) (op : Op T) (hp : Op.Plain op) (hv : Op.Valid s op) : ∃ t, step s op = .ok t ∧ Eff s t op := by
  cases op with
  | obj v =>
    refine ⟨_, rfl, eff_of (ok_newObj hI v) rfl (fun _ _ _ => rfl) (fun _ _ _ => rfl) (fun o h _ => ?_) (Nat.le_succ _)⟩
    exact upd_ne _ _ (by omega)
  | mk o =>
    have ho : o < s.nOb := hv
    refine ⟨mkFirst o s, by simp only [step, if_pos ho], ⟨ok_mkFirst hI o ho, fun a ha => ?_, fun h _ h0 => ?_, fun a ha _ => ?_, fun _ _ _ => rfl, fun _ _ _ => rfl, le_refl _⟩⟩
    · show (upd s.el s.nEl _ a).finer = _ ∧ (upd s.el s.nEl _ a).obj = _ ∧ ∀ f, _ → (upd s.el s.nEl _ a).coarser = some f
      rw [upd_ne _ _ (by omega)]; exact ⟨rfl, rfl, fun _ h => h⟩
    · show upd s.hs s.nH _ h = _
      refine upd_ne _ _ (fun e => ?_)
      rw [e, hI.hs_fresh _ (le_refl _)] at h0; exact h0 rfl
    · show upd s.el s.nEl _ a = _
      exact upd_ne _ _ (by omega)
  | empty =>
    exact ⟨_, rfl, eff_of (ok_newH hI _ (Or.inl rfl) (fun _ _ _ _ h => by cases h) (fun _ h => by cases h)) rfl (fun h _ h0 => newH_hs hI _ h0)
      (fun _ _ _ => rfl) (fun _ _ _ => rfl) (le_refl _)⟩
  | copy h =>
    cases hH : s.hs h with
    | none => exact absurd hH hv
    | some H =>
      rcases hI.hier h H hH with h0 | ⟨ds, hl⟩
      · subst h0
        refine ⟨newH ⟨none, none, 0⟩ s, by simp [step, copy, getH, hH, Res.ok_bind], ?_⟩
        exact eff_of (ok_newH hI _ (Or.inl rfl) (fun _ _ _ _ h => by cases h) (fun _ h => by cases h)) rfl (fun h _ h0 => newH_hs hI _ h0)
          (fun _ _ _ => rfl) (fun _ _ _ => rfl) (le_refl _)
      · obtain ⟨t, h1, h2, h3, h4, h5, h6, h7, _⟩ := copy_ok hI hH hl
        refine ⟨t, h1, ⟨h2, fun a ha => by rw [h3 a ha]; exact ⟨rfl, rfl, fun _ h => h⟩, fun g _ h0 => ?_, fun a ha _ => h3 a ha, fun _ _ _ => by rw [h7],
          fun o ho _ => h4 o ho, h5⟩⟩
        refine h6 g (fun e => ?_)
        rw [e, hI.hs_fresh _ (le_refl _)] at h0; exact h0 rfl
  | assign h g => exact absurd hp id
  | destroy h =>
    cases hH : s.hs h with
    | none => exact absurd hH hv
    | some H =>
      refine ⟨setH h none s, by simp [step, destroy, getH, hH, Res.ok_bind], eff_of (ok_destroy hI h) rfl (fun g hg _ => ?_) (fun _ _ _ => rfl) (fun _ _ _ => rfl) (le_refl _)⟩
      exact upd_ne _ _ (fun e => hg e.symm)
  | addRed h v =>
    obtain ⟨n, hn, hpos⟩ := hv
    cases hH : s.hs h with
    | none => simp [levels, getH, hH] at hn
    | some H =>
      have hlev : H.levels = n := by simpa [levels, getH, hH, Res.ok_bind] using hn
      rcases hI.hier h H hH with h0 | ⟨ds, hl⟩
      · rw [h0] at hlev; simp at hlev; omega
      · obtain ⟨e, he⟩ : ∃ e, H.coarsest = some e := by
          rw [hl.coarsest]
          cases ds with
          | nil => exact absurd rfl hl.path.ne_nil
          | cons a _ => exact ⟨a, rfl⟩
        have hlt := hI.coa_lt h H e hH he
        have hok := ok_setRed (ok_newObj hI v) (e := e) hlt (some s.nOb) (fun x hx => by injection hx with hx; show x < s.nOb + 1; omega)
        refine ⟨setEl e (fun x => { x with red := some s.nOb }) (newObj v s), by simp [step, addRedistributedOnCoarsest, getH, hH, Res.ok_bind, he, deref], ?_⟩
        have := setRed_eff (s := newObj v s) (op := .addRed h v) (some s.nOb) hok ⟨H, hH, he⟩
        exact ⟨this.ok, this.fin, this.hs, this.el, this.its, fun o ho _ => upd_ne _ _ (by omega), Nat.le_succ _⟩
  | add h v =>
    cases v with
    | none => exact absurd hp id
    | some v =>
      cases hH : s.hs h with
      | none => exact absurd hH hv
      | some H =>
        have hlt := hs_lt hI hH
        rcases hI.hier h H hH with h0 | ⟨ds, hl⟩
        · subst h0
          refine ⟨setH h (some ⟨some s.nEl, some s.nEl, 1⟩) (newEl { obj := some s.nOb } (newObj v s)), by simp [step, addCoarser, getH, hH, Res.ok_bind],
            ⟨ok_addFirst hI hlt v, fun a ha => ?_, fun g hg h0 => ?_, fun a ha _ => ?_, fun _ _ _ => rfl, fun o ho _ => upd_ne _ _ (by omega), Nat.le_succ _⟩⟩
          · show (upd s.el s.nEl _ a).finer = _ ∧ (upd s.el s.nEl _ a).obj = _ ∧ ∀ f, _ → (upd s.el s.nEl _ a).coarser = some f
            rw [upd_ne _ _ (by omega)]; exact ⟨rfl, rfl, fun _ h => h⟩
          · exact upd_ne _ _ (fun e => hg e.symm)
          · show upd s.el s.nEl _ a = _
            exact upd_ne _ _ (by omega)
        · obtain ⟨e, he⟩ : ∃ e, H.coarsest = some e := by
            rw [hl.coarsest]
            cases ds with
            | nil => exact absurd rfl hl.path.ne_nil
            | cons a _ => exact ⟨a, rfl⟩
          have hlt := hI.coa_lt h H e hH he
          have htop := hl.top e he
          refine ⟨added h H e v s, addCoarser_eq hH he v, ⟨ok_added hI hH he v, fun a ha => ?_, fun g hg _ => ?_, fun a ha hc => ?_, fun _ _ _ => rfl,
            fun o ho _ => by
              show upd s.ob s.nOb v o = s.ob o
              exact upd_ne _ _ (by omega), Nat.le_succ _⟩⟩
          · rw [added_el hlt]
            split
            · rename_i h1; subst h1
              exact ⟨rfl, rfl, fun f hf => by rw [htop] at hf; cases hf⟩
            · rw [if_neg (by omega)]; exact ⟨rfl, rfl, fun _ h => h⟩
          · rw [added_hs, if_neg (fun e => hg e.symm)]
          · rw [added_el hlt, if_neg (fun h1 => hc (by rw [h1]; exact ⟨H, hH, he⟩)), if_neg (by omega)]
  | fin h =>
    cases hH : s.hs h with
    | none => exact absurd hH hv
    | some H =>
      refine ⟨newIt H.finest s, by simp [step, itFinest, getH, hH, Res.ok_bind], eff_of (ok_newIt hI _ ?_) rfl (fun _ _ _ => rfl) (fun i _ h0 => newIt_its hI _ h0)
        (fun _ _ _ => rfl) (le_refl _)⟩
      intro x hx
      rcases hI.hier h H hH with h0 | ⟨ds, hl⟩
      · rw [h0] at hx; cases hx
      · rw [hl.finest] at hx
        exact hI.mem_lt hH hl x (List.mem_of_getLast? hx)
  | coa h =>
    cases hH : s.hs h with
    | none => exact absurd hH hv
    | some H =>
      exact ⟨newIt H.coarsest s, by simp [step, itCoarsest, getH, hH, Res.ok_bind], eff_of (ok_newIt hI _ (fun x hx => hI.coa_lt h H x hH hx)) rfl (fun _ _ _ => rfl)
        (fun i _ h0 => newIt_its hI _ h0) (fun _ _ _ => rfl) (le_refl _)⟩
  | itCopy i =>
    cases hi : s.its i with
    | none => exact absurd hi hv
    | some e =>
      exact ⟨newIt e s, by simp [step, itCopy, hi], eff_of (ok_newIt hI _ (fun x hx => hI.it_lt i x (by rw [hi, hx]))) rfl (fun _ _ _ => rfl)
        (fun i _ h0 => newIt_its hI _ h0) (fun _ _ _ => rfl) (le_refl _)⟩
  | inc i =>
    obtain ⟨e, hi⟩ := hv
    refine ⟨setIt i (some (lock s (s.el e).coarser)) s, by simp [step, itInc, getIt, hi, Res.ok_bind], eff_of (ok_setIt hI i _ (Or.inl (it_lt' hI hi)) ?_) rfl (fun _ _ _ => rfl) (fun j hj _ => ?_)
        (fun _ _ _ => rfl) (le_refl _)⟩
    · intro x hx
      injection hx with hx
      exact coa_alloc hI (lock_some hx)
    · exact upd_ne _ _ (fun e => hj e.symm)
  | dec i =>
    obtain ⟨e, hi⟩ := hv
    refine ⟨setIt i (some (s.el e).finer) s, by simp [step, itDec, getIt, hi, Res.ok_bind], eff_of (ok_setIt hI i _ (Or.inl (it_lt' hI hi)) ?_) rfl (fun _ _ _ => rfl) (fun j hj _ => ?_)
        (fun _ _ _ => rfl) (le_refl _)⟩
    · intro x hx
      injection hx with hx
      have h1 := (hI.fin_coa e x hx).2
      have h2 := hI.it_lt i e hi
      omega
    · exact upd_ne _ _ (fun e => hj e.symm)
  | itDestroy i =>
    refine ⟨_, rfl, eff_of (ok_setIt hI i none (Or.inr rfl) (fun x hx => by cases hx)) rfl (fun _ _ _ => rfl) (fun j hj _ => ?_)
        (fun _ _ _ => rfl) (le_refl _)⟩
    exact upd_ne _ _ (fun e => hj e.symm)
  | itAdd i o =>
    obtain ⟨⟨e, hi⟩, ho⟩ := hv
    have hok := ok_setRed hI (hI.it_lt i e hi) (some o) (fun x hx => by injection hx with hx; omega)
    exact ⟨_, by simp [step, if_pos ho, itAddRedistributed, getIt, hi, Res.ok_bind], setRed_eff (some o) hok hi⟩
  | itDel i =>
    obtain ⟨e, hi⟩ := hv
    have hok := ok_setRed hI (hI.it_lt i e hi) none (fun x hx => by cases hx)
    exact ⟨_, by simp [step, itDeleteRedistributed, getIt, hi, Res.ok_bind], setRed_eff none hok hi⟩
  | write o v =>
    have ho : o < s.nOb := hv
    refine ⟨write o v s, by simp [step, if_pos ho], eff_of (ok_write hI o v) rfl (fun _ _ _ => rfl) (fun _ _ _ => rfl) (fun p _ hc => ?_) (le_refl _)⟩
    exact upd_ne _ _ (fun e => hc e.symm)

theorem getH_ok {s : St T} {h : Nat} {H : Hier} (hh : getH s h = .ok H) : s.hs h ≠ none := by
  intro h0
  simp [getH, h0] at hh

theorem getIt_ok {s : St T} {i e : Nat} (h : getIt s i = .ok e) : s.its i = some (some e) := by
  unfold getIt at h
  split at h
  · rename_i h1; injection h with h; rw [h1, h]
  · cases h

theorem valid_of {s : St T} (hI : Ok s) {op : Op T} (hp : Op.Plain op) {t : St T} (h : step s op = .ok t) : Op.Valid s op := by
  cases op with
  | obj v => trivial
  | mk o =>
    simp only [step] at h
    split at h
    · assumption
    · cases h
  | empty => trivial
  | copy g => obtain ⟨H, h1, _⟩ := Res.bind_eq_ok.mp h; exact getH_ok h1
  | assign g k => exact absurd hp id
  | destroy g => obtain ⟨H, h1, _⟩ := Res.bind_eq_ok.mp h; exact getH_ok h1
  | addRed g v =>
    obtain ⟨H, h1, h2⟩ := Res.bind_eq_ok.mp h
    obtain ⟨e, h3, _⟩ := Res.bind_eq_ok.mp h2
    have hH : s.hs g = some H := by
      unfold getH at h1
      split at h1
      · rename_i h0; injection h1 with h1; rw [h0, h1]
      · cases h1
    refine ⟨H.levels, by simp [levels, h1, Res.ok_bind], ?_⟩
    rcases hI.hier g H hH with h0 | ⟨ds, hl⟩
    · rw [h0] at h3; simp [deref] at h3
    · rw [hl.levels]; exact List.length_pos_iff.mpr hl.path.ne_nil
  | add g v => obtain ⟨H, h1, _⟩ := Res.bind_eq_ok.mp h; exact getH_ok h1
  | fin g => obtain ⟨H, h1, _⟩ := Res.bind_eq_ok.mp h; exact getH_ok h1
  | coa g => obtain ⟨H, h1, _⟩ := Res.bind_eq_ok.mp h; exact getH_ok h1
  | itCopy i =>
    intro h0
    have h : itCopy i s = .ok t := h
    simp [itCopy, h0] at h
  | inc i => obtain ⟨e, h1, _⟩ := Res.bind_eq_ok.mp h; exact ⟨e, getIt_ok h1⟩
  | dec i => obtain ⟨e, h1, _⟩ := Res.bind_eq_ok.mp h; exact ⟨e, getIt_ok h1⟩
  | itDestroy i => trivial
  | itAdd i o =>
    simp only [step] at h
    split at h
    · rename_i ho
      obtain ⟨e, h1, _⟩ := Res.bind_eq_ok.mp h; exact ⟨⟨e, getIt_ok h1⟩, ho⟩
    · cases h
  | itDel i => obtain ⟨e, h1, _⟩ := Res.bind_eq_ok.mp h; exact ⟨e, getIt_ok h1⟩
  | write o v =>
    simp only [step] at h
    split at h
    · assumption
    · cases h

theorem eff_step {s t : St T} (hI : Ok s) {op : Op T} (hp : Op.Plain op) (h : step s op = .ok t) : Eff s t op := by
  obtain ⟨t', h1, h2⟩ := step_eff hI op hp (valid_of hI hp h)
  rw [h] at h1; injection h1 with h1; rw [h1]; exact h2

theorem ok_run : ∀ (ops : List (Op T)) (s t : St T), Ok s → (∀ o ∈ ops, Op.Plain o) → run s ops = .ok t → Ok t
  | [], s, t, hI, _, h => by injection h with h; rw [← h]; exact hI
  | o :: ops, s, t, hI, hp, h => by
    obtain ⟨u, h1, h2⟩ := Res.bind_eq_ok.mp h
    exact ok_run ops u t (eff_step hI (hp o (by simp)) h1).ok (fun x hx => hp x (by simp [hx])) h2

theorem ok_reachable {s : St T} (h : Reachable s) : Ok s := by
  obtain ⟨d, ops, hp, hr⟩ := h
  exact ok_run ops _ _ (ok_init d) hp hr

end HList
end Istl
