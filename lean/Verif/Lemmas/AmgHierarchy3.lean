import Verif.Lemmas.AmgHierarchy2
import Mathlib.Data.List.Perm.Basic
import Mathlib.Algebra.Order.Floor.Ring
import Mathlib.Tactic.Positivity

/-! Lemmas for C59: recalculation, numbers of the coarsest aggregates -/

namespace Istl
namespace Amg
open Finset MatMat
variable {B : Type}

/-- The Galerkin product for new values of the fine matrix. -/
theorem coarsening_recalc [Ring B] {fine fine' coarse : SpMat B} {map : List Agg} (h : IsCoarsening fine map coarse)
    (hs : SamePat fine fine') : ∃ C, calculate .ok fine' map coarse = .ok C ∧ SamePat coarse C ∧ IsCoarsening fine' map C := by
  have hhas : ∀ i j, fine'.Has i j ↔ fine.Has i j := by
    intro i j
    unfold SpMat.Has
    rw [hs.1]
    exact and_congr_right fun _ => hs.has i j
  have wf_of : ∀ {C D : SpMat B}, SamePat C D → C.WF → D.WF := by
    intro C D hp hC i hi
    have hC := hC i (by rw [← hp.1]; exact hi)
    refine ⟨hp.asc i hC.1, fun e he => ?_⟩
    obtain ⟨b, hb⟩ := (hp.has i e.1).mp ⟨e.2, he⟩
    rw [hp.2.1]
    exact hC.2 (e.1, b) hb
  have hw' := wf_of hs h.wf.1
  obtain ⟨C, e, hp, hv⟩ := C44_values map fine' hw' (by rw [hs.1, hs.2.1]; exact h.square.1) coarse.n
    (by rw [hs.1]; exact h.map_ok) coarse rfl (fun a ha => (h.wf.2 a ha).1) (fun a ha => (h.pattern a ha a).mpr (Or.inl rfl))
    (by
      intro i j a b h1 h2 h3
      have ha : a < coarse.n := by
        rcases h.map_ok.2 i ((hhas i j).mp h1).1 with h' | ⟨a', ha', h'⟩
        · rw [h2] at h'; simp at h'
        · rw [h2] at h'
          have : a = a' := by simpa using h'
          omega
      exact (h.pattern a ha b).mpr (Or.inr ⟨i, j, (hhas i j).mp h1, h2, h3⟩))
  refine ⟨C, e, hp, ⟨by rw [hs.1, hs.2.1]; exact h.square.1, by rw [hp.1, hp.2.1]; exact h.square.2⟩, ⟨hw', wf_of hp h.wf.2⟩,
    by rw [hs.1, hp.1]; exact h.map_ok, by rw [hs.1, hp.1]; exact h.onto, ?_, ?_⟩
  · intro a ha b
    have ha' : a < coarse.n := by rw [← hp.1]; exact ha
    have : C.Has a b ↔ coarse.Has a b := by
      unfold SpMat.Has
      rw [hp.1]
      exact and_congr_right fun _ => hp.has a b
    rw [this, h.pattern a ha' b]
    refine or_congr_right ?_
    constructor
    · rintro ⟨i, j, q⟩; exact ⟨i, j, (hhas i j).mpr q.1, q.2⟩
    · rintro ⟨i, j, q⟩; exact ⟨i, j, (hhas i j).mp q.1, q.2⟩
  · intro a ha b _
    exact hv a (by rw [← hp.1]; exact ha) b

theorem SamePat.rfl' (C : SpMat B) : SamePat C C := ⟨rfl, rfl, fun _ => rfl⟩

theorem recalc_spec [Ring B] {A A' : SpMat B} {s : MH B} (H : IsHierarchy A s) (hs : SamePat A A') :
    ∃ s', MH.recalculate { s with mats := s.mats.set 0 A' } = .ok s' ∧ IsHierarchy A' s' ∧ s'.maps = s.maps ∧
      s'.mats.length = s.mats.length ∧ ∀ (l : Nat) (C C' : SpMat B), s.mats[l]? = some C → s'.mats[l]? = some C' → SamePat C C' := by
  have hlen : 0 < s.mats.length := hier_mat H H.finest
  obtain ⟨m, e, I1, I2, I3, I4, I5⟩ := forRangeM_inv (s.mats.length - 1) (recalcStep s.maps)
    (fun i m => m.length = s.mats.length ∧ m[0]? = some A' ∧
      (∀ l, l ≤ i → ∀ C C', s.mats[l]? = some C → m[l]? = some C' → SamePat C C') ∧
      (∀ l, l < i → ∃ fine map coarse, m[l]? = some fine ∧ s.maps[l]? = some map ∧ m[l + 1]? = some coarse ∧ IsCoarsening fine map coarse) ∧
      (∀ l, i < l → m[l]? = s.mats[l]?)) (s.mats.set 0 A')
    ⟨by simp, by simp [hlen], by
        intro l hl C C' h1 h2
        have : l = 0 := by omega
        subst this
        rw [H.finest] at h1
        rw [List.getElem?_set_self hlen] at h2
        injection h1 with h1; injection h2 with h2
        subst h1; subst h2; exact hs, by intro l hl; omega, by
        intro l hl
        rw [List.getElem?_set_ne (by omega)]⟩
    (by
      rintro i m hi ⟨I1, I2, I3, I4, I5⟩
      obtain ⟨fine, map, coarse, f1, f2, f3, f4⟩ := H.step i (by omega)
      obtain ⟨fine', hf'⟩ : ∃ x, m[i]? = some x := ⟨m[i], List.getElem?_eq_getElem (by omega)⟩
      obtain ⟨C, e, hp, hc⟩ := coarsening_recalc f4 (I3 i (le_refl _) _ _ f1 hf')
      have hm1 : m[i + 1]? = some coarse := by rw [I5 (i + 1) (by omega), f3]
      refine ⟨m.set (i + 1) C, ?_, by simp [I1], ?_, ?_, ?_, ?_⟩
      · unfold recalcStep
        rw [rd_ok.mpr hf', Res.ok_bind, rd_ok.mpr f2, Res.ok_bind, rd_ok.mpr hm1, Res.ok_bind, e, Res.ok_bind]
        exact wr_lt C (by omega)
      · rw [List.getElem?_set_ne (by omega)]; exact I2
      · intro l hl D D' h1 h2
        by_cases e : l = i + 1
        · subst e
          rw [List.getElem?_set_self (by omega)] at h2
          rw [f3] at h1
          injection h1 with h1; injection h2 with h2
          subst h1; subst h2; exact hp
        · rw [List.getElem?_set_ne (by omega)] at h2
          exact I3 l (by omega) D D' h1 h2
      · intro l hl
        by_cases e : l = i
        · subst e
          exact ⟨fine', map, C, by rw [List.getElem?_set_ne (by omega)]; exact hf', f2, List.getElem?_set_self (by omega), hc⟩
        · obtain ⟨x, y, z, q1, q2, q3, q4⟩ := I4 l (by omega)
          exact ⟨x, y, z, by rw [List.getElem?_set_ne (by omega)]; exact q1, q2, by rw [List.getElem?_set_ne (by omega)]; exact q3, q4⟩
      · intro l hl
        rw [List.getElem?_set_ne (by omega)]
        exact I5 l (by omega))
  refine ⟨⟨m, s.maps⟩, ?_, ⟨by rw [I1]; exact H.count, I2, H.last_map, ?_⟩, rfl, I1, ?_⟩
  · unfold MH.recalculate
    simp only [List.length_set]
    rw [e]
    rfl
  · intro l hl
    exact I4 l (by rw [I1] at hl; omega)
  · intro l C C' h1 h2
    exact I3 l (by have := hier_mat H h1; omega) C C' h1 h2

/-! ### Drawing distinct numbers -/

theorem drawNew_spec (rnd : Nat → ℚ) (hr : ∀ k, 0 ≤ rnd k ∧ rnd k < 1) (size : Nat) (hs : 0 < size) (used : List Nat) :
    ∀ fuel k r, drawNew rnd size used fuel k = some r → r.1 ∉ used ∧ r.1 < size := by
  intro fuel
  induction fuel with
  | zero => intro k r h; simp [drawNew] at h
  | succ fuel ih =>
    intro k r h
    unfold drawNew at h
    dsimp only at h
    split at h
    · exact ih _ _ h
    · rename_i hn
      injection h with h
      subst h
      refine ⟨hn, ?_⟩
      have h1 : rnd k * size < size := by
        have : (0 : ℚ) < size := by exact_mod_cast hs
        nlinarith [(hr k).2]
      have h0 : 0 ≤ rnd k * size := mul_nonneg (hr k).1 (by positivity)
      have h2 : ⌊rnd k * size⌋ < (size : Int) := by
        rw [Int.floor_lt]; exact_mod_cast h1
      have h3 : 0 ≤ ⌊rnd k * size⌋ := Int.floor_nonneg.mpr h0
      show (⌊rnd k * size⌋.toNat) < size
      omega

theorem drawOne_spec (rnd : Nat → ℚ) (hr : ∀ k, 0 ≤ rnd k ∧ rnd k < 1) (size fuel : Nat) (hs : 0 < size) (s r : List Nat × Nat)
    (h : drawOne rnd size fuel s = some r) (hn : s.1.Nodup) (hlt : ∀ x ∈ s.1, x < size) :
    r.1.Nodup ∧ (∀ x ∈ r.1, x < size) ∧ r.1.length = s.1.length + 1 := by
  have h0 : ⌊rnd s.2⌋.toNat * size = 0 := by
    have : ⌊rnd s.2⌋ = 0 := by rw [Int.floor_eq_zero_iff]; exact ⟨(hr s.2).1, (hr s.2).2⟩
    simp [this]
  have key : ∀ x, x ∉ s.1 → x < size → (s.1 ++ [x]).Nodup ∧ (∀ y ∈ s.1 ++ [x], y < size) ∧ (s.1 ++ [x]).length = s.1.length + 1 := by
    intro x hx hxs
    refine ⟨List.nodup_append.mpr ⟨hn, by simp, by rintro a ha b hb rfl; simp at hb; exact hx (hb ▸ ha)⟩, ?_, by simp⟩
    intro y hy
    rcases List.mem_append.mp hy with h | h
    · exact hlt y h
    · simp at h; omega
  unfold drawOne at h
  dsimp only at h
  rw [h0] at h
  split at h
  · cases hd : drawNew rnd size s.1 fuel (s.2 + 1) with
    | none => rw [hd] at h; simp at h
    | some q =>
      rw [hd] at h
      simp at h
      subst h
      have := drawNew_spec rnd hr size hs s.1 fuel _ q hd
      exact key _ this.1 this.2
  · rename_i hx
    injection h with h
    subst h
    exact key 0 hx hs

theorem drawAll_spec (rnd : Nat → ℚ) (hr : ∀ k, 0 ≤ rnd k ∧ rnd k < 1) (size fuel : Nat) (hs : 0 < size) :
    ∀ (todo : Nat) (s r : List Nat × Nat), drawAll rnd size fuel todo s = some r → s.1.Nodup → (∀ x ∈ s.1, x < size) →
      r.1.Nodup ∧ (∀ x ∈ r.1, x < size) ∧ r.1.length = s.1.length + todo := by
  intro todo
  induction todo with
  | zero => intro s r h h1 h2; simp [drawAll] at h; subst h; exact ⟨h1, h2, rfl⟩
  | succ todo ih =>
    intro s r h h1 h2
    unfold drawAll at h
    cases hd : drawOne rnd size fuel s with
    | none => rw [hd] at h; simp at h
    | some q =>
      rw [hd] at h
      obtain ⟨q1, q2, q3⟩ := drawOne_spec rnd hr size fuel hs s q hd h1 h2
      obtain ⟨r1, r2, r3⟩ := ih q r h q1 q2
      exact ⟨r1, r2, by omega⟩

theorem maxAggregate_le (map : List Agg) (n : Nat) (h : ∀ a, Agg.id a ∈ map → a < n + 1) (m : Nat) (hm : m < n + 1) :
    map.foldl (fun m v => match v with | .id a => max a m | _ => m) m < n + 1 := by
  induction map generalizing m with
  | nil => exact hm
  | cons v r ih =>
    rw [List.foldl_cons]
    apply ih (fun a ha => h a (List.mem_cons_of_mem _ ha))
    cases v with
    | id a => have := h a (by simp); simp; omega
    | _ => exact hm

theorem maxAggregate_ge (map : List Agg) (m : Nat) : m ≤ map.foldl (fun m v => match v with | .id a => max a m | _ => m) m ∧
    ∀ a, Agg.id a ∈ map → a ≤ map.foldl (fun m v => match v with | .id a => max a m | _ => m) m := by
  induction map generalizing m with
  | nil => simp
  | cons v r ih =>
    rw [List.foldl_cons]
    cases v with
    | id b =>
      obtain ⟨h1, h2⟩ := ih (max b m)
      refine ⟨le_trans (le_max_right _ _) h1, ?_⟩
      intro a ha
      rcases List.mem_cons.mp ha with e | h
      · injection e with e; subst e; exact le_trans (le_max_left _ _) h1
      · exact h2 a h
    | unagg =>
      obtain ⟨h1, h2⟩ := ih m
      refine ⟨h1, fun a ha => ?_⟩
      rcases List.mem_cons.mp ha with e | h
      · cases e
      · exact h2 a h
    | iso =>
      obtain ⟨h1, h2⟩ := ih m
      refine ⟨h1, fun a ha => ?_⟩
      rcases List.mem_cons.mp ha with e | h
      · cases e
      · exact h2 a h

/-- The number of aggregates is found back from the map. -/
theorem maxAggregate_eq {map : List Agg} {n k : Nat} (hm : MapOK map n k) (ho : ∀ a < k, ∃ i < n, map[i]? = some (.id a)) (hk : 0 < k) :
    maxAggregate map + 1 = k := by
  obtain ⟨k', rfl⟩ : ∃ k', k = k' + 1 := ⟨k - 1, by omega⟩
  have h1 : maxAggregate map < k' + 1 := by
    apply maxAggregate_le map k' _ 0 (by omega)
    intro a ha
    obtain ⟨i, hi, e⟩ := List.getElem_of_mem ha
    rcases hm.2 i (by rw [← hm.1]; exact hi) with h | ⟨b, hb, h⟩
    · rw [List.getElem?_eq_getElem hi, e] at h; simp at h
    · rw [List.getElem?_eq_getElem hi, e] at h
      have : a = b := by simpa using h
      omega
  have h2 : k' ≤ maxAggregate map := by
    obtain ⟨i, hi, e⟩ := ho k' (by omega)
    exact (maxAggregate_ge map 0).2 k' (List.mem_of_getElem? e)
  omega

/-- the projection loop: applies `P` for each map and toggles the buffers -/
theorem project_loop : ∀ (ms : List (List Agg)) (ns : List Nat) (b : TwoBufs) (k : Nat) (f : Nat → Nat),
    VecIs b.coarse k f → ms.length = ns.length →
    (∀ i m, ms[i]? = some m → ∃ n, ns[i]? = some n ∧ MapOK m n ((k :: ns).getD i 0)) →
    ∃ b', ms.foldlM projectStep b = .ok b' ∧ VecIs b'.coarse ((k :: ns).getLastD 0) (ms.foldl (fun f m => P m f) f) ∧
      b'.coarseIsData = (b.coarseIsData ^^ decide (ms.length % 2 = 1)) := by
  intro ms
  induction ms with
  | nil =>
    intro ns b k f hv hl _
    have : ns = [] := List.eq_nil_of_length_eq_zero (by simpa using hl.symm)
    subst this
    exact ⟨b, rfl, by simpa using hv, by simp⟩
  | cons m ms ih =>
    intro ns b k f hv hl hm
    cases ns with
    | nil => simp at hl
    | cons n ns =>
      have h0 : MapOK m n k := by
        obtain ⟨n', h1, h2⟩ := hm 0 m rfl
        simp at h1 h2
        subst h1; exact h2
      obtain ⟨c', f', e, v1, v2, _⟩ := C45_prolongate (X := Nat) (K := Nat) m n k h0 b.coarse (List.replicate m.length 0) f (fun _ => 0) 1 hv
        ⟨by simp [h0.1], by intro i hi; rw [rd_ok]; simp [h0.1, hi]⟩
      have hstep : projectStep b m = .ok { (b.setCoarse c').setFine f' with coarseIsData := !b.coarseIsData } := by
        unfold projectStep
        rw [e, Res.ok_bind]
        cases hb : b.coarseIsData <;> simp [TwoBufs.setCoarse, TwoBufs.setFine, hb]
      have hco : ({ (b.setCoarse c').setFine f' with coarseIsData := !b.coarseIsData } : TwoBufs).coarse = f' := by
        cases hb : b.coarseIsData <;> simp [TwoBufs.coarse, TwoBufs.setCoarse, TwoBufs.setFine, hb]
      obtain ⟨b', e', v', d'⟩ := ih ns { (b.setCoarse c').setFine f' with coarseIsData := !b.coarseIsData } n (P m f)
        (by rw [hco]; exact v2.congr (by intro i _; simp)) (by simpa using hl) (by
          intro i m' hi
          obtain ⟨n', h1, h2⟩ := hm (i + 1) m' (by simpa using hi)
          exact ⟨n', by simpa using h1, by simpa using h2⟩)
      refine ⟨b', ?_, ?_, ?_⟩
      · rw [List.foldlM_cons, hstep]; exact e'
      · rw [List.foldl_cons]
        have : (k :: n :: ns).getLastD 0 = (n :: ns).getLastD 0 := by simp
        rw [this]; exact v'
      · rw [d']
        have : (m :: ms).length = ms.length + 1 := rfl
        rw [this]
        rcases Nat.mod_two_eq_zero_or_one ms.length with h | h
        · have h' : (ms.length + 1) % 2 = 1 := by omega
          simp [h, h']
        · have h' : (ms.length + 1) % 2 = 0 := by omega
          simp [h, h']

theorem foldr_cluster (maps : List (List Agg)) : ∀ (l : Nat), l ≤ maps.length → ∀ (g : Nat → Nat) (i : Nat),
    (maps.take l).foldr (fun m f => P m f) g i = match cluster maps l i with | some a => g a | none => 0 := by
  intro l
  induction l with
  | zero => intro _ g i; simp [cluster]
  | succ l ih =>
    intro hl g i
    rw [List.take_succ, List.foldr_append, List.getElem?_eq_getElem (by omega)]
    simp only [Option.toList_some, List.foldr_cons, List.foldr_nil]
    rw [ih (by omega), cluster]
    cases h : cluster maps l i with
    | none => rfl
    | some a =>
      simp only [P, List.getD_eq_getElem?_getD, List.getElem?_eq_getElem (show l < maps.length by omega), Option.getD_some]
      split <;> simp_all

end Amg
end Istl
