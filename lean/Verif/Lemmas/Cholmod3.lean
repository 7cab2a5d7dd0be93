import Verif.Lemmas.Cholmod2

/-! # Lemmas for the Cholmod wrapper: copying the vectors, and the solved system -/

namespace Istl
namespace Cholmod
open ForEach Ccs Umf Finset

variable {K : Type}

theorem zipIdx_split {α : Type} {l : List α} {P : List (α × Nat)} {a : α} {k : Nat} {rest : List (α × Nat)}
    (h : l.zipIdx 0 = P ++ (a, k) :: rest) : k = P.length ∧ l[P.length]? = some a ∧ P.length < l.length := by
  have hlen : P.length < l.length := by
    have := congrArg List.length h
    simp at this
    omega
  have hget : (l.zipIdx 0)[P.length]? = some (a, k) := by rw [h]; simp
  rw [List.getElem?_zipIdx, List.getElem?_eq_getElem hlen] at hget
  simp only [Option.map_some, Option.some.injEq, Prod.mk.injEq, Nat.zero_add] at hget
  exact ⟨hget.2.symm, by rw [List.getElem?_eq_getElem hlen, hget.1], hlen⟩

theorem subOf_case (ign : Option (NVec Bool)) (n r : Nat) (h : r < n) :
    (subOf ign n = [] ∧ Keeps ign n r ∧ newIndex ign n r = r) ∨
    (subOf ign n ≠ [] ∧ rd (subOf ign n) r = .ok (if Keeps ign n r then some (newIndex ign n r) else none)) := by
  cases ign with
  | none => exact Or.inl ⟨rfl, h, newIndex_none n r h.le⟩
  | some v =>
    right
    constructor
    · unfold subOf
      intro h'
      have := congrArg List.length h'
      simp at this
      omega
    · rw [rd_ok]; unfold subOf; simp [h]

theorem putB_step (ign : Option (NVec Bool)) (n : Nat) (mem : Nat → K) (a r : Nat) (bp : List K) (h : r < n) :
    putB (subOf ign n) mem a r (.ok bp) = if Keeps ign n r then wr bp (newIndex ign n r) (mem a) else .ok bp := by
  unfold putB
  rcases subOf_case ign n r h with ⟨h1, h2, h3⟩ | ⟨h1, h2⟩
  · rw [if_pos h2, h3]
    simp only [Res.ok_bind, h1, if_true]
  · simp only [Res.ok_bind]
    rw [if_neg h1, h2]
    by_cases hk : Keeps ign n r
    · simp only [hk, if_true, Res.ok_bind]
    · simp only [hk, if_false, Res.ok_bind]

theorem getX_step (ign : Option (NVec Bool)) (n : Nat) (xp : List K) (a r : Nat) (mem : Nat → K) (h : r < n) :
    getX (subOf ign n) xp a r (.ok mem) = if Keeps ign n r then
      (rd xp (newIndex ign n r) >>= fun v => .ok (fun q => if q = a then v else mem q)) else .ok mem := by
  unfold getX
  rcases subOf_case ign n r h with ⟨h1, h2, h3⟩ | ⟨h1, h2⟩
  · rw [if_pos h2, h3]
    simp only [Res.ok_bind, h1, if_true]
  · simp only [Res.ok_bind]
    rw [if_neg h1, h2]
    by_cases hk : Keeps ign n r
    · simp only [hk, if_true, Res.ok_bind]
    · simp only [hk, if_false, Res.ok_bind]

theorem putB_spec (ign : Option (NVec Bool)) (n : Nat) (mem : Nat → K) (zero : K) (b : NVec Nat) (hb : b.leaves.length = n) :
    ∃ bp, (flatVector (putB (subOf ign n) mem) b 0 (.ok (List.replicate (dofs ign n) zero))).1 = .ok bp ∧
      bp.length = dofs ign n ∧
      ∀ r a, Keeps ign n r → b.leaves[r]? = some a → bp[newIndex ign n r]? = some (mem a) := by
  rw [C40_vector]
  dsimp only
  obtain ⟨bp, e, h1, h2⟩ := foldl_res_inv (fun st (p : Nat × Nat) => putB (subOf ign n) mem p.1 p.2 st)
    (fun P (bp : List K) => bp.length = dofs ign n ∧
      ∀ r a, r < P.length → Keeps ign n r → b.leaves[r]? = some a → bp[newIndex ign n r]? = some (mem a))
    (b.leaves.zipIdx 0) (List.replicate (dofs ign n) zero) (by simp) (by
      rintro P ⟨a, k⟩ rest bp hl ⟨h1, h2⟩
      obtain ⟨rfl, hget, hlt⟩ := zipIdx_split hl
      rw [hb] at hlt
      dsimp only
      rw [putB_step ign n mem a P.length bp hlt]
      by_cases hk : Keeps ign n P.length
      · have hi : newIndex ign n P.length < bp.length := by
          rw [h1]; exact newIndex_lt ign n hlt hk
        rw [if_pos hk, wr_lt _ hi]
        refine ⟨_, rfl, by simpa using h1, ?_⟩
        intro r a' hr hkr ha'
        rw [List.length_append, List.length_singleton] at hr
        by_cases hrk : r = P.length
        · subst hrk
          rw [List.getElem?_set_self hi]
          rw [hget] at ha'; cases ha'; rfl
        · rw [List.getElem?_set_ne (fun hh => hrk (newIndex_inj ign n hk hkr hh).symm)]
          exact h2 r a' (by omega) hkr ha'
      · rw [if_neg hk]
        refine ⟨bp, rfl, h1, ?_⟩
        intro r a' hr hkr ha'
        rw [List.length_append, List.length_singleton] at hr
        have : r ≠ P.length := by rintro rfl; exact hk hkr
        exact h2 r a' (by omega) hkr ha')
  refine ⟨bp, e, h1, ?_⟩
  intro r a hk ha
  exact h2 r a (by simp; have := hk.lt; omega) hk ha

theorem getX_spec (ign : Option (NVec Bool)) (n : Nat) (mem : Nat → K) (xp : List K) (hxp : xp.length = dofs ign n)
    (x : NVec Nat) (hx : x.leaves.length = n) (hnd : x.leaves.Nodup) :
    ∃ mem', (flatVector (getX (subOf ign n) xp) x 0 (.ok mem)).1 = .ok mem' ∧
      (∀ q, (∀ r, Keeps ign n r → x.leaves[r]? ≠ some q) → mem' q = mem q) ∧
      ∀ r q, Keeps ign n r → x.leaves[r]? = some q → xp[newIndex ign n r]? = some (mem' q) := by
  rw [C40_vector]
  dsimp only
  obtain ⟨mem', e, h1, h2⟩ := foldl_res_inv (fun st (p : Nat × Nat) => getX (subOf ign n) xp p.1 p.2 st)
    (fun P (m : Nat → K) => (∀ q, (∀ r, r < P.length → Keeps ign n r → x.leaves[r]? ≠ some q) → m q = mem q) ∧
      ∀ r q, r < P.length → Keeps ign n r → x.leaves[r]? = some q → xp[newIndex ign n r]? = some (m q))
    (x.leaves.zipIdx 0) mem ⟨fun _ _ => rfl, by simp⟩ (by
      rintro P ⟨a, k⟩ rest m hl ⟨h1, h2⟩
      obtain ⟨rfl, hget, hlt⟩ := zipIdx_split hl
      have hlt' := hlt
      rw [hx] at hlt
      dsimp only
      rw [getX_step ign n xp a P.length m hlt]
      by_cases hk : Keeps ign n P.length
      · have hi : newIndex ign n P.length < xp.length := by
          rw [hxp]; exact newIndex_lt ign n hlt hk
        rw [if_pos hk, rd_lt hi]
        refine ⟨_, rfl, ?_, ?_⟩
        · intro q hq
          have hqa : q ≠ a := by
            rintro rfl
            exact hq P.length (by simp) hk hget
          rw [if_neg hqa]
          exact h1 q fun r hr => hq r (by simp; omega)
        · intro r q hr hkr hq
          rw [List.length_append, List.length_singleton] at hr
          by_cases hrk : r = P.length
          · subst hrk
            rw [hget] at hq; cases hq
            rw [if_pos rfl, List.getElem?_eq_getElem hi]
          · have hqa : q ≠ a := by
              rintro rfl
              obtain ⟨hr', he⟩ := List.getElem?_eq_some_iff.mp hq
              obtain ⟨_, he'⟩ := List.getElem?_eq_some_iff.mp hget
              exact hrk ((List.Nodup.getElem_inj_iff hnd).mp (he.trans he'.symm))
            rw [if_neg hqa]
            exact h2 r q (by omega) hkr hq
      · rw [if_neg hk]
        refine ⟨m, rfl, ?_, ?_⟩
        · intro q hq
          exact h1 q fun r hr => hq r (by simp; omega)
        · intro r q hr hkr hq
          rw [List.length_append, List.length_singleton] at hr
          have : r ≠ P.length := by rintro rfl; exact hk hkr
          exact h2 r q (by omega) hkr hq)
  refine ⟨mem', e, ?_, ?_⟩
  · intro q hq
    exact h1 q fun r _ => hq r
  · intro r q hk hq
    exact h2 r q (by simp; have := hk.lt; omega) hk hq

variable [CommRing K]

/-- reading the packed arrays -/
theorem reads_iff {M : Ccs.Mat K} {N : Nat} {P : Nat → Nat → K → Prop} (h : M.Represents N P) (r c : Nat) (v : K) :
    Reads M r c v ↔ c < N ∧ P r c v := by
  obtain ⟨h1, _, _, _, _, h6⟩ := h
  constructor
  · rintro ⟨a, e, k, ha, he, hk, hk', hr, hv⟩
    have hc : c < N := by
      rw [rd_ok] at he
      have := (List.getElem?_eq_some_iff.mp he).1
      omega
    obtain ⟨a', e', ha', he', _, _, hiff⟩ := h6 c hc
    rw [ha] at ha'; cases ha'
    rw [he] at he'; cases he'
    exact ⟨hc, (hiff r v).mp ⟨k, hk, hk', hr, hv⟩⟩
  · rintro ⟨hc, hp⟩
    obtain ⟨a, e, ha, he, _, _, hiff⟩ := h6 c hc
    obtain ⟨k, hk, hk', hr, hv⟩ := (hiff r v).mpr hp
    exact ⟨a, e, k, ha, he, hk, hk', hr, hv⟩

/-- The system the library solves, in terms of the user's matrix. -/
theorem solves_spec (A : NMat K) (n : Nat) (hA : Dim A n n) (ign : Option (NVec Bool)) (a : Nat → Nat → K) (ha : IsValue A a)
    (M : Ccs.Mat K) (hN : M.N = dofs ign n) (hM : (packed M).Represents (dofs ign n) (Given A ign n))
    (x b : List K) (hs : Solves M x b) (r : Nat) (hr : Keeps ign n r) :
    ∑ c ∈ (range n).filter (Keeps ign n), (if r ≤ c then a r c else a c r) * x.getD (newIndex ign n c) 0 =
      b.getD (newIndex ign n r) 0 := by
  classical
  let m : Nat → Nat → K := fun i j => if h : ∃ v, Reads (packed M) i j v then Classical.choose h else 0
  have huniq := (C40_unique A n n hA).1
  have hgu : ∀ i j v v', Given A ign n i j v → Given A ign n i j v' → v = v' := by
    rintro i j v v' ⟨r1, c1, h1, _, k1, k1', rfl, rfl⟩ ⟨r2, c2, h2, _, k2, k2', e1, e2⟩
    obtain rfl := newIndex_inj ign n k1 k2 e1
    obtain rfl := newIndex_inj ign n k1' k2' e2
    exact huniq _ _ _ _ h1 h2
  have hm : Describes (packed M) m := by
    intro i j
    constructor
    · intro v hv
      have hex : ∃ v, Reads (packed M) i j v := ⟨v, hv⟩
      have hch := Classical.choose_spec hex
      change (if h : ∃ v, Reads (packed M) i j v then Classical.choose h else 0) = v
      rw [dif_pos hex]
      exact hgu i j _ _ ((reads_iff hM _ _ _).mp hch).2 ((reads_iff hM _ _ _).mp hv).2
    · intro hv
      change (if h : ∃ v, Reads (packed M) i j v then Classical.choose h else 0) = 0
      rw [dif_neg (by rintro ⟨v, h⟩; exact hv v h)]
  have hval : ∀ p q, Keeps ign n p → Keeps ign n q → q ≤ p → m (newIndex ign n p) (newIndex ign n q) = a q p := by
    intro p q hp hq hle
    by_cases hex : ∃ v, At A q p v
    · obtain ⟨v, hv⟩ := hex
      rw [((ha q p).1 v hv)]
      exact (hm _ _).1 v ((reads_iff hM _ _ _).mpr ⟨newIndex_lt ign n hq.lt hq, p, q, hv, hle, hp, hq, rfl, rfl⟩)
    · rw [(ha q p).2 fun v hv => hex ⟨v, hv⟩]
      refine (hm _ _).2 ?_
      intro v hv
      obtain ⟨_, r1, c1, h1, _, k1, k1', e1, e2⟩ := (reads_iff hM _ _ _).mp hv
      obtain rfl := newIndex_inj ign n hp k1 e1
      obtain rfl := newIndex_inj ign n hq k1' e2
      exact hex ⟨v, h1⟩
  have hrow := hs m hm (newIndex ign n r) (by rw [hN]; exact newIndex_lt ign n hr.lt hr)
  rw [← hrow, hN]
  refine Finset.sum_nbij (newIndex ign n) ?_ ?_ ?_ ?_
  · intro c hc
    rw [Finset.mem_filter] at hc
    exact Finset.mem_range.mpr (newIndex_lt ign n hc.2.lt hc.2)
  · intro c hc c' hc' h
    rw [Finset.mem_coe, Finset.mem_filter] at hc hc'
    exact newIndex_inj ign n hc.2 hc'.2 h
  · intro j hj
    rw [Finset.mem_coe, Finset.mem_range] at hj
    obtain ⟨c, hc, hk, he⟩ := newIndex_surj ign n n j hj
    exact ⟨c, by rw [Finset.mem_coe, Finset.mem_filter, Finset.mem_range]; exact ⟨hc, hk⟩, he⟩
  · intro c hc
    rw [Finset.mem_filter] at hc
    congr 1
    rcases lt_trichotomy r c with h | h | h
    · have := newIndex_lt ign n h hr
      rw [if_pos h.le, if_neg (by omega), hval c r hc.2 hr h.le]
    · subst h
      rw [if_pos le_rfl, if_pos le_rfl, hval r r hr hr le_rfl]
    · have := newIndex_lt ign n h hc.2
      rw [if_neg (by omega), if_pos (by omega), hval r c hr hc.2 h.le]

end Cholmod
end Istl
