import Verif.Spec.MatrixDim
import Verif.Lemmas.Vec
import Verif.Lemmas.Ccs
import Verif.Props.C40

/-! # Dimensions of nested matrices and the lines written -/

namespace Istl
namespace MatDim
open Finset
variable {S : Type}

theorem sum_const_range (n b : Nat) (h : Nat → Nat) (hh : ∀ i, i < n → h i = b) : ∑ i ∈ range n, h i = n * b := by
  rw [Finset.sum_congr rfl fun i hi => hh i (Finset.mem_range.mp hi)]
  simp

theorem rowdim_layout {A : MMat S} {R C : Nat} {P : Nat → Nat → S → Prop} (h : Layout A R C P) : rowdim A = .ok R := by
  induction h with
  | scalar s => rfl
  | node k n m pat entry h w Q hpat hk hblk ih =>
    match k, hk with
    | .flat, hk =>
      show Res.ok n = _
      rw [sum_const_range n 1 h hk.1, Nat.mul_one]
    | .bcrsField br bc, hk =>
      show Res.ok (n * br) = _
      rw [sum_const_range n br h hk.1]
    | .denseField br bc, hk =>
      show Res.ok (n * br) = _
      rw [sum_const_range n br h hk.1]
    | .bcrs, hk =>
      unfold rowdim
      obtain ⟨s', e, hs⟩ := forRangeM_inv n (fun i nn =>
        match pat i with
        | [] => .ok nn
        | j :: _ => do
          let d ← rowdim (entry i j)
          .ok (nn + d)) (fun i s => s = ∑ a ∈ range i, h a) 0 (by simp) (by
          intro i s hi hs
          match hp : pat i with
          | [] =>
            refine ⟨s, by simp only [hp], ?_⟩
            rw [Finset.sum_range_succ, hk.1 i hi hp, hs, Nat.add_zero]
          | j :: l =>
            refine ⟨s + h i, ?_, by rw [Finset.sum_range_succ, hs]⟩
            simp only [hp, ih i j hi (by rw [hp]; simp), Res.ok_bind])
      rw [hs] at e
      exact e
    | .dense, hk =>
      unfold rowdim
      obtain ⟨hn, hm, hp⟩ := hk
      obtain ⟨m', rfl⟩ : ∃ m', m = m' + 1 := ⟨m - 1, by omega⟩
      obtain ⟨s', e, hs⟩ := forRangeM_inv n (fun i nn => do
          let d ← rowdim (entry i 0)
          Res.ok (nn + d)) (fun i s => s = ∑ a ∈ range i, h a) 0 (by simp) (by
          intro i s hi hs
          refine ⟨s + h i, ?_, by rw [Finset.sum_range_succ, hs]⟩
          simp only [ih i 0 hi (by rw [hp i hi]; simp), Res.ok_bind])
      rw [hs] at e
      exact e

theorem rowdimAt_layout {k : Kind} {n m : Nat} {pat : Nat → List Nat} {entry : Nat → Nat → MMat S} {h w : Nat → Nat}
    {Q : Nat → Nat → Nat → Nat → S → Prop} (hk : KindOk n m pat h w k)
    (hblk : ∀ i j, i < n → j ∈ pat i → Layout (entry i j) (h i) (w j) (Q i j)) {i : Nat} (hi : i < n) :
    rowdimAt k m pat entry i = .ok (h i) := by
  match k, hk with
  | .flat, hk => rw [hk.1 i hi]; rfl
  | .bcrsField br bc, hk => rw [hk.1 i hi]; rfl
  | .denseField br bc, hk => rw [hk.1 i hi]; rfl
  | .bcrs, hk =>
    unfold rowdimAt
    match hp : pat i with
    | [] => simp only [hp, hk.1 i hi hp]
    | j :: l => simp only [hp, rowdim_layout (hblk i j hi (by rw [hp]; simp))]
  | .dense, hk =>
    unfold rowdimAt
    obtain ⟨hn, hm, hp⟩ := hk
    simp only [if_neg (show ¬ m = 0 by omega), rowdim_layout (hblk i 0 hi (by rw [hp i hi]; simpa using hm))]

theorem sumColdims_eq (m : Nat) (w : Nat → Nat) (hit : Nat → Prop) [DecidablePred hit] (d : Nat → Option Nat)
    (hd : ∀ j, d j = if hit j then some (w j) else none) (h0 : ∀ j, j < m → ¬ hit j → w j = 0) :
    sumColdims m d = (∑ j ∈ range m, w j + ((range m).filter fun j => ¬ hit j).card * (W - 1)) % W := by
  unfold sumColdims
  generalize W - 1 = v
  generalize W = u
  induction m with
  | zero => simp
  | succ m ih =>
    rw [forRange_succ, ih fun j hj => h0 j (by omega), hd, Finset.sum_range_succ, Finset.range_add_one, Finset.filter_insert]
    by_cases h : hit m
    · simp only [if_pos h, if_neg (not_not.mpr h)]
      rw [Nat.mod_add_mod]
      congr 1
      omega
    · simp only [if_neg h, if_pos h]
      rw [Nat.mod_add_mod, h0 m (by omega) h, Finset.card_insert_of_notMem (by simp), Nat.add_mul]
      congr 1
      omega

/-- The loop of `coldim` over all entries. -/
theorem coldims_loop {n m : Nat} {pat : Nat → List Nat} {entry : Nat → Nat → MMat S} {w : Nat → Nat}
    (hpat : ∀ i, i < n → ∀ j ∈ pat i, j < m) (hc : ∀ i j, i < n → j ∈ pat i → coldim (entry i j) = .ok (w j)) :
    ∃ d : Nat → Option Nat, forRangeM n (fun i (d : Nat → Option Nat) =>
      (pat i).foldlM (fun d j =>
        if j < m then
          match d j with
          | some _ => .ok d
          | none => do
            let c ← coldim (entry i j)
            .ok (upd d j (some c))
        else .ub) d) (fun _ => none) = .ok d ∧
      ∀ j, (d j = some (w j) ∧ ∃ i, i < n ∧ j ∈ pat i) ∨ (d j = none ∧ ¬ ∃ i, i < n ∧ j ∈ pat i) := by
  obtain ⟨d, e, hd⟩ := forRangeM_inv n (fun i (d : Nat → Option Nat) =>
      (pat i).foldlM (fun d j =>
        if j < m then
          match d j with
          | some _ => .ok d
          | none => do
            let c ← coldim (entry i j)
            .ok (upd d j (some c))
        else .ub) d)
    (fun i d => ∀ j, (d j = some (w j) ∧ ∃ a, a < i ∧ j ∈ pat a) ∨ (d j = none ∧ ¬ ∃ a, a < i ∧ j ∈ pat a))
    (fun _ => none) (fun j => .inr ⟨rfl, by rintro ⟨a, ha, _⟩; omega⟩) (by
      intro i d hi hd
      obtain ⟨d', e', hd'⟩ := Ccs.foldlM_inv (fun (d : Nat → Option Nat) j =>
        if j < m then
          match d j with
          | some _ => Res.ok d
          | none => do
            let c ← coldim (entry i j)
            .ok (upd d j (some c))
        else .ub)
        (fun l d => ∀ j, (d j = some (w j) ∧ ((∃ a, a < i ∧ j ∈ pat a) ∨ j ∈ l)) ∨
          (d j = none ∧ ¬ ((∃ a, a < i ∧ j ∈ pat a) ∨ j ∈ l))) (pat i) d
        (fun j => by simpa using hd j) (by
          intro l j rest d hl hd
          have hj : j ∈ pat i := by rw [hl]; simp
          rw [if_pos (hpat i hi j hj)]
          rcases hd j with ⟨h1, h2⟩ | ⟨h1, h2⟩
          · refine ⟨d, by simp only [h1], fun x => ?_⟩
            by_cases hx : x = j
            · subst hx; exact .inl ⟨h1, .inr (by simp)⟩
            · simpa [hx] using hd x
          · refine ⟨upd d j (some (w j)), by simp only [h1, hc i j hi hj, Res.ok_bind], fun x => ?_⟩
            by_cases hx : x = j
            · subst hx; exact .inl ⟨by simp [upd], .inr (by simp)⟩
            · simpa [upd, hx] using hd x)
      refine ⟨d', e', fun j => ?_⟩
      have : (∃ a, a < i + 1 ∧ j ∈ pat a) ↔ ((∃ a, a < i ∧ j ∈ pat a) ∨ j ∈ pat i) := by
        constructor
        · rintro ⟨a, ha, hj⟩
          rcases Nat.lt_succ_iff_lt_or_eq.mp ha with h | rfl
          · exact .inl ⟨a, h, hj⟩
          · exact .inr hj
        · rintro (⟨a, ha, hj⟩ | hj)
          · exact ⟨a, by omega, hj⟩
          · exact ⟨i, by omega, hj⟩
      rw [this]
      exact hd' j)
  exact ⟨d, e, hd⟩

/-- `coldim` of a general `BCRSMatrix` whose blocks are measured correctly. -/
theorem coldim_bcrs {n m : Nat} {pat : Nat → List Nat} {entry : Nat → Nat → MMat S} {w : Nat → Nat}
    (hpat : ∀ i, i < n → ∀ j ∈ pat i, j < m) (hc : ∀ i j, i < n → j ∈ pat i → coldim (entry i j) = .ok (w j))
    (h0 : ∀ j, j < m → (∀ i, i < n → j ∉ pat i) → w j = 0) :
    coldim (.node .bcrs n m pat entry) = .ok ((∑ j ∈ range m, w j +
      ((range m).filter fun j => ∀ i, i < n → j ∉ pat i).card * (W - 1)) % W) := by
  classical
  obtain ⟨d, e, hd⟩ := coldims_loop hpat hc
  unfold coldim
  refine (congrArg (fun r : Res (Nat → Option Nat) => r >>= fun d => Res.ok (sumColdims m d)) e).trans ?_
  rw [Res.ok_bind]
  congr 1
  rw [sumColdims_eq m w (fun j => ∃ i, i < n ∧ j ∈ pat i) d]
  · congr 4
    ext j
    simp
  · intro j
    rcases hd j with ⟨h1, h2⟩ | ⟨h1, h2⟩
    · rw [if_pos h2, h1]
    · rw [if_neg h2, h1]
  · intro j hj hn
    exact h0 j hj fun i hi hji => hn ⟨i, hi, hji⟩

theorem FullCols.blocks {k : Kind} {n m : Nat} {pat : Nat → List Nat} {entry : Nat → Nat → MMat S}
    (h : FullCols (.node k n m pat entry)) : ∀ i j, i < n → j ∈ pat i → FullCols (entry i j) := by
  match k with
  | .flat => exact h
  | .bcrs => exact h.2
  | .bcrsField _ _ => exact h
  | .dense => exact h
  | .denseField _ _ => exact h

theorem coldim_layout {A : MMat S} {R C : Nat} {P : Nat → Nat → S → Prop} (h : Layout A R C P) (hf : FullCols A)
    (hC : C < W) : coldim A = .ok C := by
  induction h with
  | scalar s => rfl
  | node k n m pat entry h w Q hpat hk hblk ih =>
    have hw : ∀ j, j < m → w j < W := fun j hj =>
      lt_of_le_of_lt (Finset.single_le_sum (f := w) (fun _ _ => Nat.zero_le _) (Finset.mem_range.mpr hj)) hC
    have hb : ∀ i j, i < n → j ∈ pat i → coldim (entry i j) = .ok (w j) := fun i j hi hj =>
      ih i j hi hj (hf.blocks i j hi hj) (hw j ((hpat i hi).2 j hj))
    match k, hk with
    | .flat, hk =>
      show Res.ok m = _
      rw [sum_const_range m 1 w hk.2, Nat.mul_one]
    | .bcrsField br bc, hk =>
      show Res.ok (m * bc) = _
      rw [sum_const_range m bc w hk.2]
    | .denseField br bc, hk =>
      show Res.ok (m * bc) = _
      rw [sum_const_range m bc w hk.2]
    | .bcrs, hk =>
      rw [coldim_bcrs (fun i hi => (hpat i hi).2) hb hk.2]
      have : ((range m).filter fun j => ∀ i, i < n → j ∉ pat i) = ∅ := by
        apply Finset.filter_eq_empty_iff.mpr
        intro j hj hall
        obtain ⟨i, hi, hji⟩ := hf.1 j (Finset.mem_range.mp hj)
        exact hall i hi hji
      rw [this, Finset.card_empty, Nat.zero_mul, Nat.add_zero, Nat.mod_eq_of_lt hC]
    | .dense, hk =>
      unfold coldim
      obtain ⟨hn, hm, hp⟩ := hk
      obtain ⟨n', rfl⟩ : ∃ n', n = n' + 1 := ⟨n - 1, by omega⟩
      obtain ⟨s', e, hs⟩ := forRangeM_inv m (fun j nn => do
          let d ← coldim (entry 0 j)
          Res.ok (nn + d)) (fun j s => s = ∑ a ∈ range j, w a) 0 (by simp) (by
          intro j s hj hs
          refine ⟨s + w j, ?_, by rw [Finset.sum_range_succ, hs]⟩
          simp only [hb 0 j (by omega) (by rw [hp 0 (by omega)]; simpa using hj), Res.ok_bind])
      rw [hs] at e
      exact e

theorem coldimAt_layout {k : Kind} {n m : Nat} {pat : Nat → List Nat} {entry : Nat → Nat → MMat S} {h w : Nat → Nat}
    {Q : Nat → Nat → Nat → Nat → S → Prop} (hk : KindOk n m pat h w k)
    (hblk : ∀ i j, i < n → j ∈ pat i → Layout (entry i j) (h i) (w j) (Q i j))
    (hf : ∀ i j, i < n → j ∈ pat i → FullCols (entry i j)) {j : Nat} (hj : j < m) (hw : w j < W) :
    coldimAt k n pat entry j = .ok (w j) := by
  match k, hk with
  | .flat, hk => rw [hk.2 j hj]; rfl
  | .bcrsField br bc, hk => rw [hk.2 j hj]; rfl
  | .denseField br bc, hk => rw [hk.2 j hj]; rfl
  | .bcrs, hk =>
    unfold coldimAt
    match hp : (List.range n).find? fun i => decide (j ∈ pat i) with
    | none =>
      simp only [hp]
      rw [hk.2 j hj]
      intro i hi hji
      have := List.find?_eq_none.mp hp i (List.mem_range.mpr hi)
      exact this (by simpa using hji)
    | some i =>
      have hi := List.mem_range.mp (List.mem_of_find?_eq_some hp)
      have hji : j ∈ pat i := by simpa using List.find?_some hp
      simp only [hp, coldim_layout (hblk i j hi hji) (hf i j hi hji) hw]
  | .dense, hk =>
    unfold coldimAt
    obtain ⟨hn, hm, hp⟩ := hk
    have hj0 : j ∈ pat 0 := by rw [hp 0 hn]; simpa using hj
    simp only [if_neg (show ¬ n = 0 by omega), coldim_layout (hblk 0 j hn hj0) (hf 0 j hn hj0) hw]

theorem colOffsets_layout {k : Kind} {n m : Nat} {pat : Nat → List Nat} {entry : Nat → Nat → MMat S} {h w : Nat → Nat}
    {Q : Nat → Nat → Nat → Nat → S → Prop} (hk : KindOk n m pat h w k)
    (hblk : ∀ i j, i < n → j ∈ pat i → Layout (entry i j) (h i) (w j) (Q i j))
    (hf : ∀ i j, i < n → j ∈ pat i → FullCols (entry i j)) (hm : 0 < m) (hw : ∀ j, j < m → w j < W) :
    ∃ o, colOffsets k n m pat entry = .ok o ∧ ∀ j, j < m → o j = ∑ a ∈ range j, w a := by
  unfold colOffsets
  rw [if_neg (by omega)]
  obtain ⟨o, e, ho⟩ := forRangeM_inv (m - 1) (fun i (o : Nat → Nat) => do
    let d ← coldimAt k n pat entry i
    Res.ok (upd o (i + 1) (o i + d))) (fun i o => ∀ j, j ≤ i → o j = ∑ a ∈ range j, w a) (fun _ => 0)
    (by intro j hj; obtain rfl : j = 0 := by omega
        simp) (by
      intro i o hi ho
      refine ⟨upd o (i + 1) (o i + w i), ?_, fun j hj => ?_⟩
      · simp only [coldimAt_layout hk hblk hf (show i < m by omega) (hw i (by omega)), Res.ok_bind]
      · by_cases hji : j = i + 1
        · subst hji
          simp only [upd, if_true]
          rw [Finset.sum_range_succ, ho i (le_refl _)]
        · simp only [upd, if_neg hji]
          exact ho j (by omega))
  exact ⟨o, e, fun j hj => ho j (by omega)⟩

theorem layout_bounds {A : MMat S} {R C : Nat} {P : Nat → Nat → S → Prop} (h : Layout A R C P) :
    ∀ r c s, P r c s → r < R ∧ c < C := by
  induction h with
  | scalar s => rintro r c x ⟨rfl, rfl, _⟩; exact ⟨by omega, by omega⟩
  | node k n m pat entry h w Q hpat hk hblk ih =>
    rintro r c x ⟨i, j, r', c', hi, hj, hq, rfl, rfl⟩
    obtain ⟨h1, h2⟩ := ih i j hi hj r' c' x hq
    exact ⟨ForEach.block_lt hi h1, ForEach.block_lt ((hpat i hi).2 j hj) h2⟩

/-- Lines of a block moved to its place and counted from one. -/
def place (ro co : Nat) (T : List (Nat × Nat × S)) : List (Nat × Nat × S) := T.map fun e => (ro + e.1 + 1, co + e.2.1 + 1, e.2.2)

theorem matlab_layout {A : MMat S} {R C : Nat} {P : Nat → Nat → S → Prop} (h : Layout A R C P) (hf : BlocksFull A)
    (hh : HasCols A) (hC : C < W) :
    ∃ T : List (Nat × Nat × S), (∀ ro co, matlab A ro co = .ok (place ro co T)) ∧
      (∀ r c s, (r, c, s) ∈ T ↔ P r c s) ∧ (T.map fun e => (e.1, e.2.1)).Nodup := by
  induction h with
  | scalar s => exact ⟨[(0, 0, s)], fun ro co => rfl, by simp, by simp⟩
  | node k n m pat entry h w Q hpat hk hblk ih =>
    have hw : ∀ j, j < m → w j < W := fun j hj =>
      lt_of_le_of_lt (Finset.single_le_sum (f := w) (fun _ _ => Nat.zero_le _) (Finset.mem_range.mpr hj)) hC
    have full : ∀ {B : MMat S}, FullCols B → BlocksFull B := by
      intro B hB
      match B with
      | .scalar _ => trivial
      | .node .. => exact hB.blocks
    have hT : ∀ i j, i < n → j ∈ pat i → ∃ T : List (Nat × Nat × S),
        (∀ ro co, matlab (entry i j) ro co = .ok (place ro co T)) ∧
        (∀ r c s, (r, c, s) ∈ T ↔ Q i j r c s) ∧ (T.map fun e => (e.1, e.2.1)).Nodup := fun i j hi hj =>
      ih i j hi hj (full (hf i j hi hj)) (hh.2 i j hi hj) (hw j ((hpat i hi).2 j hj))
    have : ∃ T : Nat → Nat → List (Nat × Nat × S), ∀ i j, i < n → j ∈ pat i →
        (∀ ro co, matlab (entry i j) ro co = .ok (place ro co (T i j))) ∧
        (∀ r c s, (r, c, s) ∈ T i j ↔ Q i j r c s) ∧ ((T i j).map fun e => (e.1, e.2.1)).Nodup := by
      classical
      refine ⟨fun i j => if hij : i < n ∧ j ∈ pat i then (hT i j hij.1 hij.2).choose else [], fun i j hi hj => ?_⟩
      simp only [dif_pos (show i < n ∧ j ∈ pat i from ⟨hi, hj⟩)]
      exact (hT i j hi hj).choose_spec
    obtain ⟨T, hT⟩ := this
    let H : Nat → Nat := fun i => ∑ a ∈ range i, h a
    let V : Nat → Nat := fun j => ∑ a ∈ range j, w a
    let mv : Nat → Nat → Nat × Nat × S → Nat × Nat × S := fun i j e => (H i + e.1, V j + e.2.1, e.2.2)
    have place_mv : ∀ ro co i j (l : List (Nat × Nat × S)), place ro co (l.map (mv i j)) = place (ro + H i) (co + V j) l := by
      intro ro co i j l
      simp [place, mv, Nat.add_assoc]
    have place_append : ∀ ro co (l l' : List (Nat × Nat × S)), place ro co (l ++ l') = place ro co l ++ place ro co l' := by
      intro ro co l l'; simp [place]
    refine ⟨(List.range n).flatMap fun i => (pat i).flatMap fun j => (T i j).map (mv i j), ?_, ?_, ?_⟩
    · intro ro co
      unfold matlab
      obtain ⟨o, eo, ho⟩ := colOffsets_layout hk hblk hf hh.1 hw
      rw [eo, Res.ok_bind]
      obtain ⟨st, e, hst⟩ := forRangeM_inv n (fun i (st : List (Nat × Nat × S) × Nat) => do
        let out ← (pat i).foldlM (fun out j =>
          if j < m then do
            let l ← matlab (entry i j) (ro + st.2) (co + o j)
            .ok (out ++ l)
          else .ub) st.1
        let d ← rowdimAt k m pat entry i
        Res.ok (out, st.2 + d))
        (fun i st => st.1 = place ro co ((List.range i).flatMap fun i => (pat i).flatMap fun j => (T i j).map (mv i j)) ∧
          st.2 = H i) ([], 0) ⟨rfl, by simp [H]⟩ (by
          intro i st hi ⟨h1, h2⟩
          obtain ⟨out, e1, ho1⟩ := Ccs.foldlM_inv (fun out j =>
            if j < m then do
              let l ← matlab (entry i j) (ro + st.2) (co + o j)
              Res.ok (out ++ l)
            else .ub)
            (fun l out => out = st.1 ++ place ro co (l.flatMap fun j => (T i j).map (mv i j))) (pat i) st.1 (by simp [place]) (by
              intro l j rest out hl hout
              have hj : j ∈ pat i := by rw [hl]; simp
              have hjm := (hpat i hi).2 j hj
              refine ⟨_, by rw [if_pos hjm, (hT i j hi hj).1, Res.ok_bind], ?_⟩
              rw [hout, List.flatMap_append, place_append, List.append_assoc]
              congr 2
              rw [List.flatMap_singleton, place_mv, h2, ho j hjm])
          refine ⟨(out, st.2 + h i), ?_, ?_, ?_⟩
          · rw [e1, Res.ok_bind, rowdimAt_layout hk hblk hi, Res.ok_bind]
          · rw [ho1, h1, List.range_succ, List.flatMap_append, place_append, List.flatMap_singleton]
          · show st.2 + h i = ∑ a ∈ range (i + 1), h a
            rw [Finset.sum_range_succ, h2])
      rw [e, Res.ok_bind, hst.1]
    · intro r c s
      simp only [List.mem_flatMap, List.mem_range, List.mem_map]
      constructor
      · rintro ⟨i, hi, j, hj, ⟨r', c', s'⟩, he, heq⟩
        simp only [mv, Prod.mk.injEq] at heq
        obtain ⟨rfl, rfl, rfl⟩ := heq
        exact ⟨i, j, r', c', hi, hj, ((hT i j hi hj).2.1 _ _ _).mp he, rfl, rfl⟩
      · rintro ⟨i, j, r', c', hi, hj, hq, rfl, rfl⟩
        exact ⟨i, hi, j, hj, (r', c', s), ((hT i j hi hj).2.1 _ _ _).mpr hq, rfl⟩
    · have bnd : ∀ i j, i < n → j ∈ pat i → ∀ e ∈ T i j, e.1 < h i ∧ e.2.1 < w j := by
        rintro i j hi hj ⟨r, c, s⟩ he
        exact layout_bounds (hblk i j hi hj) r c s (((hT i j hi hj).2.1 _ _ _).mp he)
      refine ForEach.nodup_flat _ _ _ List.nodup_range ?_ ?_
      · intro i hi
        have hi := List.mem_range.mp hi
        refine ForEach.nodup_flat _ _ _ (hpat i hi).1 ?_ ?_
        · intro j hj
          have := (hT i j hi hj).2.2
          have e : (((T i j).map (mv i j)).map fun e => (e.1, e.2.1)) =
              ((T i j).map fun e => (e.1, e.2.1)).map fun p => (H i + p.1, V j + p.2) := by
            simp [mv, Function.comp_def]
          rw [e]
          apply this.map
          rintro ⟨a, b⟩ ⟨a', b'⟩ hab
          simp only [Prod.mk.injEq] at hab ⊢
          omega
        · intro j hj j' hj' e he e' he' heq
          obtain ⟨u, hu, rfl⟩ := List.mem_map.mp he
          obtain ⟨u', hu', rfl⟩ := List.mem_map.mp he'
          simp only [mv, Prod.mk.injEq] at heq
          exact ForEach.block_inj (bnd i j hi hj u hu).2 (bnd i j' hi hj' u' hu').2 heq.2
      · intro i hi i' hi' e he e' he' heq
        have hi := List.mem_range.mp hi
        have hi' := List.mem_range.mp hi'
        obtain ⟨j, hj, he⟩ := List.mem_flatMap.mp he
        obtain ⟨j', hj', he'⟩ := List.mem_flatMap.mp he'
        obtain ⟨u, hu, rfl⟩ := List.mem_map.mp he
        obtain ⟨u', hu', rfl⟩ := List.mem_map.mp he'
        simp only [mv, Prod.mk.injEq] at heq
        exact ForEach.block_inj (bnd i j hi hj u hu).1 (bnd i' j' hi' hj' u' hu').1 heq.1

end MatDim
end Istl
