import Verif.Spec.Ccs
import Verif.Lemmas.Vec
import Verif.Lemmas.MatMat

/-! Counting sort of scalar entries into columns. -/

namespace Istl
namespace Ccs
variable {B K : Type}

theorem foldlM_inv {E S : Type} (f : S → E → Res S) (I : List E → S → Prop) (l : List E) (s : S) (h0 : I [] s)
    (hs : ∀ P e rest s, l = P ++ e :: rest → I P s → ∃ s', f s e = .ok s' ∧ I (P ++ [e]) s') :
    ∃ s', l.foldlM f s = .ok s' ∧ I l s' := by
  suffices h : ∀ rest P s, l = P ++ rest → I P s → ∃ s', rest.foldlM f s = .ok s' ∧ I l s' from h l [] s rfl h0
  intro rest
  induction rest with
  | nil => intro P s e hI; exact ⟨s, rfl, by rw [e, List.append_nil]; exact hI⟩
  | cons e rest ih =>
    intro P s el hI
    obtain ⟨s1, h1, i1⟩ := hs P e rest s el hI
    obtain ⟨s2, h2, i2⟩ := ih (P ++ [e]) s1 (by simp [el]) i1
    exact ⟨s2, by rw [List.foldlM_cons, h1]; exact h2, i2⟩

/-- The entries of column `c` in visiting order. -/
def colOf (c : Nat) (E : List (Nat × Nat × K)) : List (Nat × Nat × K) := E.filter (fun e => e.2.1 == c)

/-- number of entries in the columns before `c` -/
def startOf (E : List (Nat × Nat × K)) (c : Nat) : Nat := ∑ q ∈ Finset.range c, (colOf q E).length

theorem startOf_succ (E : List (Nat × Nat × K)) (c : Nat) : startOf E (c + 1) = startOf E c + (colOf c E).length :=
  Finset.sum_range_succ _ _

theorem startOf_mono (E : List (Nat × Nat × K)) {c d : Nat} (h : c ≤ d) : startOf E c ≤ startOf E d :=
  Finset.sum_le_sum_of_subset (Finset.range_mono h)

theorem startOf_total (E : List (Nat × Nat × K)) (cols : Nat) (h : ∀ e ∈ E, e.2.1 < cols) :
    startOf E cols = E.length := by
  induction E with
  | nil => simp [startOf, colOf]
  | cons e E ih =>
    have ih' := ih (fun x hx => h x (List.mem_cons_of_mem _ hx))
    have he : e.2.1 < cols := h e List.mem_cons_self
    have : ∀ q, (colOf q (e :: E)).length = (colOf q E).length + if q = e.2.1 then 1 else 0 := by
      intro q
      by_cases hq : e.2.1 = q
      · simp [colOf, hq]
      · simp [colOf, hq, Ne.symm hq]
    unfold startOf at ih' ⊢
    simp only [this, Finset.sum_add_distrib, ih']
    simp [he]

theorem colOf_append (c : Nat) (P Q : List (Nat × Nat × K)) : colOf c (P ++ Q) = colOf c P ++ colOf c Q := by
  simp [colOf]

/-- scalar entries of a block -/
def blockE (ent : B → Nat → Nat → K) (n m : Nat) (e : Nat × Nat × B) : List (Nat × Nat × K) :=
  (List.range n).flatMap fun i => (List.range m).map fun j => (e.1 * n + i, e.2.1 * m + j, ent e.2.2 i j)

theorem copyValue_eq (ent : B → Nat → Nat → K) (n m : Nat) (b : B) (r c : Nat) (s : Init K) :
    copyValue ent n m b r c s = (blockE ent n m (r, c, b)).foldlM (fun s e => put e.1 e.2.1 e.2.2 s) s := by
  unfold copyValue blockE forRangeM
  rw [MatMat.foldlM_flatMap]
  congr 1
  funext s i
  rw [List.foldlM_map]

theorem copyAll_eq (ent : B → Nat → Nat → K) (n m : Nat) (L : List (Nat × Nat × B)) (s : Init K) :
    L.foldlM (fun s e => copyValue ent n m e.2.2 e.1 e.2.1 s) s =
      (L.flatMap (blockE ent n m)).foldlM (fun s e => put e.1 e.2.1 e.2.2 s) s := by
  rw [MatMat.foldlM_flatMap]
  congr 1
  funext s e
  rw [copyValue_eq]

theorem blockE_count (ent : B → Nat → Nat → K) (n m : Nat) (e : Nat × Nat × B) (q : Nat) :
    (colOf q (blockE ent n m e)).length = if e.2.1 * m ≤ q ∧ q < e.2.1 * m + m then n else 0 := by
  obtain ⟨r, c, b⟩ := e
  unfold colOf blockE
  dsimp only
  rw [List.filter_flatMap, List.length_flatMap]
  have h1 : ∀ i, (((List.range m).map fun j => (r * n + i, c * m + j, ent b i j)).filter
      (fun e => e.2.1 == q)).length = if c * m ≤ q ∧ q < c * m + m then 1 else 0 := by
    intro i
    rw [List.filter_map, List.length_map]
    induction m generalizing c with
    | zero => simp
    | succ k _ =>
      have : ∀ k', ((List.range k').filter ((fun e : Nat × Nat × K => e.2.1 == q) ∘
          fun j => (r * n + i, c * (k + 1) + j, ent b i j))).length =
          if c * (k + 1) ≤ q ∧ q < c * (k + 1) + k' then 1 else 0 := by
        intro k'
        induction k' with
        | zero => simp
        | succ k' ih =>
          rw [List.range_succ, List.filter_append, List.length_append, ih]
          by_cases h : c * (k + 1) + k' = q
          · subst h; simp
          · have : (c * (k + 1) ≤ q ∧ q < c * (k + 1) + k') ↔ (c * (k + 1) ≤ q ∧ q < c * (k + 1) + (k' + 1)) := by omega
            simp [h, this]
      exact this (k + 1)
  simp only [h1]
  split <;> simp

theorem blockE_length (ent : B → Nat → Nat → K) (n m : Nat) (e : Nat × Nat × B) : (blockE ent n m e).length = n * m := by
  simp [blockE, List.length_flatMap]

theorem flat_length (ent : B → Nat → Nat → K) (n m : Nat) (L : List (Nat × Nat × B)) :
    (L.flatMap (blockE ent n m)).length = L.length * (n * m) := by
  rw [List.length_flatMap]
  simp [blockE_length]

/-- Phase 2: counting. -/
theorem countEntries_spec (n m c cols : Nat) (hc : c * m + m ≤ cols) (s : Init K) (f : Nat → Nat) (h : VecIs s.marker cols f) :
    ∃ s', countEntries n m c s = .ok s' ∧ s'.mat = s.mat ∧
      VecIs s'.marker cols (fun q => f q + if c * m ≤ q ∧ q < c * m + m then n else 0) := by
  refine forRangeM_inv m (fun i s => countStep n m c i s) (fun i s' => s'.mat = s.mat ∧
    VecIs s'.marker cols (fun q => f q + if c * m ≤ q ∧ q < c * m + i then n else 0)) s
    ⟨rfl, h.congr (by intro q _; rw [if_neg (by omega)]; rfl)⟩ ?_
  intro i s' hi ⟨hm, hv⟩
  have hlt : c * m + i < cols := by omega
  obtain ⟨mk, e, hv'⟩ := hv.wr (f (c * m + i) + n) hlt
  have hr := hv.2 (c * m + i) hlt
  dsimp only at hr
  rw [if_neg (by omega), Nat.add_zero] at hr
  refine ⟨{ s' with marker := mk }, by simp [countStep, hr, e], hm, hv'.congr ?_⟩
  intro q _
  by_cases hq : q = c * m + i
  · subst hq; simp
  · have : (c * m ≤ q ∧ q < c * m + i) ↔ (c * m ≤ q ∧ q < c * m + (i + 1)) := by omega
    simp [upd_ne _ _ hq, this]

theorem countAll_spec (ent : B → Nat → Nat → K) (n m cols : Nat) (L : List (Nat × Nat × B))
    (hc : ∀ e ∈ L, e.2.1 * m + m ≤ cols) (s : Init K) (h : VecIs s.marker cols (fun _ => 0)) :
    ∃ s', L.foldlM (fun s e => countEntries n m e.2.1 s) s = .ok s' ∧ s'.mat = s.mat ∧
      VecIs s'.marker cols (fun q => (colOf q (L.flatMap (blockE ent n m))).length) := by
  refine foldlM_inv _ (fun P s' => s'.mat = s.mat ∧
    VecIs s'.marker cols (fun q => (colOf q (P.flatMap (blockE ent n m))).length)) L s ⟨rfl, by simpa [colOf] using h⟩ ?_
  intro P e rest s' hl ⟨hm, hv⟩
  obtain ⟨s2, e2, hm2, hv2⟩ := countEntries_spec n m e.2.1 cols (hc e (by simp [hl])) s' _ hv
  refine ⟨s2, e2, by rw [hm2, hm], hv2.congr ?_⟩
  intro q _
  rw [List.flatMap_append, colOf_append, List.length_append]
  congr 1
  rw [List.flatMap_singleton, blockE_count]

/-- everything but the column starts is the same -/
def SameData (X Y : Mat K) : Prop :=
  X.N = Y.N ∧ X.M = Y.M ∧ X.nnz = Y.nnz ∧ X.values = Y.values ∧ X.rowindex = Y.rowindex

/-- everything but the entries is the same -/
def SameHead (X Y : Mat K) : Prop := X.N = Y.N ∧ X.M = Y.M ∧ X.nnz = Y.nnz ∧ X.colstart = Y.colstart

/-- Phase 3a: prefix sums. -/
theorem calcColstart_spec (cols : Nat) (s : Init K) (f : Nat → Nat) (h : VecIs s.marker cols f)
    (hcs : s.mat.colstart.length = cols + 1) :
    ∃ s', calcColstart cols s = .ok s' ∧ SameData s'.mat s.mat ∧
      VecIs s'.mat.colstart (cols + 1) (fun q => ∑ c ∈ Finset.range q, f c) ∧
      VecIs s'.marker cols (fun q => ∑ c ∈ Finset.range q, f c) := by
  have hcs0 : ∃ g, VecIs s.mat.colstart (cols + 1) g := by
    refine ⟨fun i => s.mat.colstart.getD i 0, hcs, ?_⟩
    intro i hi
    have : i < s.mat.colstart.length := by omega
    rw [rd_lt this]
    simp [List.getD, this]
  obtain ⟨g, hg⟩ := hcs0
  obtain ⟨cs0, e0, hv0⟩ := hg.wr 0 (show 0 < cols + 1 by omega)
  unfold calcColstart
  rw [e0, Res.ok_bind]
  obtain ⟨s', e, h1, h2, h3⟩ := forRangeM_inv cols (fun i s => calcStep i s)
    (fun i s' => SameData s'.mat s.mat ∧
      VecIs s'.mat.colstart (cols + 1) (fun q => if q ≤ i then ∑ c ∈ Finset.range q, f c else g q) ∧
      VecIs s'.marker cols (fun q => if q < i then ∑ c ∈ Finset.range q, f c else f q))
    ({ s with mat := { s.mat with colstart := cs0 } })
    ⟨⟨rfl, rfl, rfl, rfl, rfl⟩, hv0.congr (by
        intro q _
        by_cases hq : q = 0
        · subst hq; simp
        · simp [upd_ne _ _ hq, hq]), h.congr (by intros; simp)⟩ (by
      intro i s' hi ⟨h1, h2, h3⟩
      have hr1 := h2.2 i (by omega)
      dsimp only at hr1
      rw [if_pos le_rfl] at hr1
      have hr2 := h3.2 i hi
      dsimp only at hr2
      rw [if_neg (lt_irrefl i)] at hr2
      obtain ⟨cs, e1, hv1⟩ := h2.wr ((∑ c ∈ Finset.range i, f c) + f i) (show i + 1 < cols + 1 by omega)
      obtain ⟨mk, e2, hv2⟩ := h3.wr (∑ c ∈ Finset.range i, f c) hi
      have hr3 := hv1.2 i (by omega)
      rw [upd_ne _ _ (by omega), if_pos le_rfl] at hr3
      refine ⟨⟨{ s'.mat with colstart := cs }, mk⟩, by simp [calcStep, hr1, hr2, e1, hr3, e2], ?_, ?_, ?_⟩
      · exact h1
      · refine hv1.congr ?_
        intro q _
        by_cases hq : q = i + 1
        · subst hq; simp [Finset.sum_range_succ]
        · rw [upd_ne _ _ hq]
          have : q ≤ i ↔ q ≤ i + 1 := by omega
          simp [this]
      · refine hv2.congr ?_
        intro q _
        by_cases hq : q = i
        · subst hq; simp
        · rw [upd_ne _ _ hq]
          have : q < i ↔ q < i + 1 := by omega
          simp [this])
  refine ⟨s', e, h1, h2.congr ?_, h3.congr ?_⟩
  · intro q hq; rw [if_pos (by omega)]
  · intro q hq; rw [if_pos hq]

/-- Phase 3b: distributing the entries. -/
theorem putAll_spec (cols : Nat) (E : List (Nat × Nat × K)) (hE : ∀ e ∈ E, e.2.1 < cols) (s : Init K)
    (hmk : VecIs s.marker cols (startOf E)) (hri : s.mat.rowindex.length = E.length)
    (hvs : s.mat.values.length = E.length) :
    ∃ s', E.foldlM (fun s e => put e.1 e.2.1 e.2.2 s) s = .ok s' ∧
      SameHead s'.mat s.mat ∧
      s'.mat.rowindex.length = E.length ∧ s'.mat.values.length = E.length ∧
      ∀ c, c < cols → ∀ k e, (colOf c E)[k]? = some e →
        s'.mat.rowindex[startOf E c + k]? = some e.1 ∧ s'.mat.values[startOf E c + k]? = some e.2.2 := by
  obtain ⟨s', e, h1, h2, h3, h4, h5⟩ := foldlM_inv (fun s e => put e.1 e.2.1 e.2.2 s)
    (fun P s' => SameHead s'.mat s.mat ∧
      s'.mat.rowindex.length = E.length ∧ s'.mat.values.length = E.length ∧
      VecIs s'.marker cols (fun c => startOf E c + (colOf c P).length) ∧
      ∀ c, c < cols → ∀ k e, (colOf c P)[k]? = some e →
        s'.mat.rowindex[startOf E c + k]? = some e.1 ∧ s'.mat.values[startOf E c + k]? = some e.2.2) E s
    ⟨⟨rfl, rfl, rfl, rfl⟩, hri, hvs, by simpa [colOf] using hmk, by simp [colOf]⟩ (by
      intro P e rest s' hl ⟨h1, h2, h3, h4, h5⟩
      have hc0 : e.2.1 < cols := hE e (by simp [hl])
      have hcolE : (colOf e.2.1 P).length + 1 ≤ (colOf e.2.1 E).length := by
        rw [hl, colOf_append]
        simp [colOf]
      have hp : startOf E e.2.1 + (colOf e.2.1 P).length < startOf E (e.2.1 + 1) := by rw [startOf_succ]; omega
      have hp2 : startOf E (e.2.1 + 1) ≤ E.length := by
        rw [← startOf_total E cols hE]; exact startOf_mono E hc0
      have hr := h4.2 e.2.1 hc0
      dsimp only at hr
      obtain ⟨mk, e3, hv⟩ := h4.wr (startOf E e.2.1 + (colOf e.2.1 P).length + 1) hc0
      set p := startOf E e.2.1 + (colOf e.2.1 P).length with hpdef
      have hpr : p < s'.mat.rowindex.length := by omega
      have hpv : p < s'.mat.values.length := by omega
      refine ⟨⟨{ s'.mat with rowindex := s'.mat.rowindex.set p e.1, values := s'.mat.values.set p e.2.2 }, mk⟩,
        by simp [put, hr, wr_lt _ hpr, wr_lt _ hpv, e3], ?_, by simpa using h2, by simpa using h3, hv.congr ?_, ?_⟩
      · exact h1
      · intro c _
        rw [colOf_append]
        by_cases hc : c = e.2.1
        · subst hc; simp [colOf, hpdef]; omega
        · simp [upd_ne _ _ hc, colOf, Ne.symm hc]
      · intro c hc k x hx
        dsimp only
        rw [colOf_append] at hx
        by_cases hkn : c = e.2.1 ∧ k = (colOf e.2.1 P).length
        · obtain ⟨rfl, rfl⟩ := hkn
          have : x = e := by simpa [colOf] using hx.symm
          subst this
          simp [← hpdef, hpr, hpv]
        · have hold : (colOf c P)[k]? = some x := by
            by_cases hce : c = e.2.1
            · subst hce
              rw [List.getElem?_append] at hx
              split at hx
              · exact hx
              · rename_i hge
                have : k ≠ (colOf e.2.1 P).length := fun h => hkn ⟨rfl, h⟩
                rw [show colOf e.2.1 [e] = [e] by simp [colOf], List.getElem?_eq_none (by simp; omega)] at hx
                cases hx
            · rw [show colOf c [e] = [] by simp [colOf, Ne.symm hce], List.append_nil] at hx
              exact hx
          have hklt : k < (colOf c P).length := by
            by_contra h
            rw [List.getElem?_eq_none (by omega)] at hold
            cases hold
          have hne : p ≠ startOf E c + k := by
            have hkE : (colOf c P).length ≤ (colOf c E).length := by
              rw [hl, colOf_append]; simp
            rcases lt_trichotomy c e.2.1 with h | h | h
            · have := startOf_mono E (show c + 1 ≤ e.2.1 from h)
              rw [startOf_succ] at this
              omega
            · subst h; omega
            · have := startOf_mono E (show e.2.1 + 1 ≤ c from h)
              omega
          obtain ⟨g1, g2⟩ := h5 c hc k x hold
          rw [List.getElem?_set_ne hne, List.getElem?_set_ne hne]
          exact ⟨g1, g2⟩)
  exact ⟨s', e, h1, h2, h3, h5⟩

/-- Arrays filled column by column represent the sorted entries. -/
theorem represents_of_cols (cols : Nat) (E : List (Nat × Nat × K)) (hE : ∀ e ∈ E, e.2.1 < cols)
    (hpw : E.Pairwise (fun e e' => e.2.1 = e'.2.1 → e.1 < e'.1)) (X : Mat K)
    (hcs : VecIs X.colstart (cols + 1) (startOf E)) (hnnz : X.nnz = E.length) (hr3 : X.rowindex.length = E.length)
    (hvl3 : X.values.length = E.length)
    (hput : ∀ c, c < cols → ∀ k e, (colOf c E)[k]? = some e →
        X.rowindex[startOf E c + k]? = some e.1 ∧ X.values[startOf E c + k]? = some e.2.2) :
    X.Represents cols (fun r c v => (r, c, v) ∈ E) := by
  refine ⟨hcs.1, by rw [hr3, hnnz], by rw [hvl3, hnnz], ?_, ?_, ?_⟩
  · exact hcs.2 0 (by omega)
  · rw [hcs.2 cols (by omega), hnnz, ← startOf_total E cols hE]
  · intro c hcc
    refine ⟨startOf E c, startOf E (c + 1), hcs.2 c (by omega),
      hcs.2 (c + 1) (by omega), startOf_mono E (by omega), ?_, ?_⟩
    · intro k l r r' hk hkl hl hr hr'
      rw [startOf_succ] at hl
      have hpc : (colOf c E).Pairwise (fun e e' => e.2.1 = e'.2.1 → e.1 < e'.1) := hpw.filter _
      obtain ⟨k', rfl⟩ := Nat.exists_eq_add_of_le hk
      obtain ⟨l', rfl⟩ := Nat.exists_eq_add_of_le (show startOf E c ≤ l by omega)
      have hk' : k' < (colOf c E).length := by omega
      have hl' : l' < (colOf c E).length := by omega
      have g1 := (hput c hcc k' _ (List.getElem?_eq_getElem hk')).1
      have g2 := (hput c hcc l' _ (List.getElem?_eq_getElem hl')).1
      rw [rd_ok, g1] at hr
      rw [rd_ok, g2] at hr'
      have := List.pairwise_iff_getElem.mp hpc k' l' hk' hl' (by omega)
      have c1 : ((colOf c E)[k']).2.1 = c := by
        have := List.of_mem_filter (List.getElem_mem hk'); simpa using this
      have c2 : ((colOf c E)[l']).2.1 = c := by
        have := List.of_mem_filter (List.getElem_mem hl'); simpa using this
      have := this (by rw [c1, c2])
      cases hr; cases hr'
      exact this
    · intro r v
      constructor
      · rintro ⟨k, hk, hk', hr, hv⟩
        rw [startOf_succ] at hk'
        obtain ⟨k', rfl⟩ := Nat.exists_eq_add_of_le hk
        have hlt : k' < (colOf c E).length := by omega
        obtain ⟨g1, g2⟩ := hput c hcc k' _ (List.getElem?_eq_getElem hlt)
        rw [rd_ok, g1] at hr
        rw [rd_ok, g2] at hv
        have hmem := List.getElem_mem hlt
        have hc1 : ((colOf c E)[k']).2.1 = c := by
          have := List.of_mem_filter hmem; simpa using this
        have hmemE := List.mem_of_mem_filter hmem
        have : (r, c, v) = (colOf c E)[k'] := by
          cases hr; cases hv
          exact Prod.ext rfl (Prod.ext hc1.symm rfl)
        rw [this]
        exact hmemE
      · intro h
        have hmem : (r, c, v) ∈ colOf c E := by
          unfold colOf; rw [List.mem_filter]; exact ⟨h, by simp⟩
        obtain ⟨k, hk, hke⟩ := List.getElem_of_mem hmem
        obtain ⟨g1, g2⟩ := hput c hcc k _ (List.getElem?_eq_getElem hk)
        rw [hke] at g1 g2
        exact ⟨startOf E c + k, by omega, by rw [startOf_succ]; omega, rd_ok.mpr g1, rd_ok.mpr g2⟩

/-- All phases, on a list of blocks. -/
theorem convert_spec (v0 : Nat → K) (i0 : Nat → Nat) (ent : B → Nat → Nat → K) (n m cols : Nat) (L : List (Nat × Nat × B))
    (hc : ∀ e ∈ L, e.2.1 * m + m ≤ cols)
    (hord : L.Pairwise (fun e e' => e.2.1 = e'.2.1 → e.1 < e'.1))
    (s : Init K) (hs : s.mat.nnz = L.length) :
    ∃ s1 s2 s3, L.foldlM (fun s e => countEntries n m e.2.1 s) (allocate v0 i0 cols n m s) = .ok s1 ∧
      calcColstart cols s1 = .ok s2 ∧ L.foldlM (fun s e => copyValue ent n m e.2.2 e.1 e.2.1 s) s2 = .ok s3 ∧
      s3.mat.N = s.mat.N ∧ s3.mat.M = s.mat.M ∧ s3.mat.nnz = L.length * (n * m) ∧
      s3.mat.Represents cols (fun r c v => ∃ R C b i j, (R, C, b) ∈ L ∧ i < n ∧ j < m ∧ r = R * n + i ∧ c = C * m + j ∧
        v = ent b i j) := by
  set E := L.flatMap (blockE ent n m) with hEdef
  have hEmem : ∀ r c v, (r, c, v) ∈ E ↔ ∃ R C b i j, (R, C, b) ∈ L ∧ i < n ∧ j < m ∧ r = R * n + i ∧ c = C * m + j ∧
      v = ent b i j := by
    intro r c v
    simp only [hEdef, List.mem_flatMap, blockE, List.mem_map, List.mem_range, Prod.mk.injEq]
    constructor
    · rintro ⟨⟨R, C, b⟩, hL, i, hi, j, hj, h1, h2, h3⟩
      exact ⟨R, C, b, i, j, hL, hi, hj, h1.symm, h2.symm, h3.symm⟩
    · rintro ⟨R, C, b, i, j, hL, hi, hj, h1, h2, h3⟩
      exact ⟨(R, C, b), hL, i, hi, j, hj, h1.symm, h2.symm, h3.symm⟩
  have hE : ∀ e ∈ E, e.2.1 < cols := by
    rintro ⟨r, c, v⟩ he
    obtain ⟨R, C, b, i, j, hL, _, hj, _, h2, _⟩ := (hEmem r c v).mp he
    have := hc _ hL
    dsimp only at this ⊢
    omega
  have hpw : E.Pairwise (fun e e' => e.2.1 = e'.2.1 → e.1 < e'.1) := by
    rw [hEdef, List.pairwise_flatMap]
    constructor
    · rintro ⟨R, C, b⟩ _
      unfold blockE
      rw [List.pairwise_flatMap]
      constructor
      · intro i _
        rw [List.pairwise_map]
        refine List.pairwise_lt_range.imp ?_
        intro j j' hj h
        dsimp only at h
        omega
      · refine List.pairwise_lt_range.imp ?_
        intro i i' hi x hx y hy h
        simp only [List.mem_map, List.mem_range] at hx hy
        obtain ⟨j, _, rfl⟩ := hx
        obtain ⟨j', _, rfl⟩ := hy
        dsimp only
        omega
    · refine hord.imp ?_
      rintro ⟨R, C, b⟩ ⟨R', C', b'⟩ hR x hx y hy h
      simp only [blockE, List.mem_flatMap, List.mem_map, List.mem_range] at hx hy
      obtain ⟨i, hi, j, hj, rfl⟩ := hx
      obtain ⟨i', hi', j', hj', rfl⟩ := hy
      dsimp only at h ⊢ hR
      have hCC : C = C' := by
        rcases lt_trichotomy C C' with h' | h' | h'
        · have := Nat.mul_le_mul_right m (show C + 1 ≤ C' from h')
          rw [Nat.add_mul, Nat.one_mul] at this
          omega
        · exact h'
        · have := Nat.mul_le_mul_right m (show C' + 1 ≤ C from h')
          rw [Nat.add_mul, Nat.one_mul] at this
          omega
      have := Nat.mul_le_mul_right n (show R + 1 ≤ R' from hR hCC)
      rw [Nat.add_mul, Nat.one_mul] at this
      omega
  have hlen : E.length = L.length * (n * m) := flat_length ent n m L
  obtain ⟨s1, e1, hm1, hv1⟩ := countAll_spec ent n m cols L hc (allocate v0 i0 cols n m s)
    ⟨by simp [allocate], by intro i hi; rw [rd_ok]; simp [allocate, hi]⟩
  obtain ⟨s2, e2, hm2, hcs2, hv2⟩ := calcColstart_spec cols s1 _ hv1 (by rw [hm1]; simp [allocate])
  rw [hm1] at hm2
  obtain ⟨f1, f2, f3, f4, f5⟩ := hm2
  obtain ⟨s3, e3, ⟨g1, g2, g3, hcs3⟩, hr3, hvl3, hput⟩ := putAll_spec cols E hE s2 hv2
    (by rw [f5, hlen]; simp [allocate, hs]) (by rw [f4, hlen]; simp [allocate, hs])
  have hnnz : s3.mat.nnz = E.length := by rw [g3, f3, hlen]; simp [allocate, hs]
  refine ⟨s1, s2, s3, e1, e2, by rw [copyAll_eq]; exact e3, by rw [g1, f1]; rfl, by rw [g2, f2]; rfl, by rw [hnnz, hlen], ?_⟩
  have := represents_of_cols cols E hE hpw s3.mat (by rw [hcs3]; exact hcs2) hnnz hr3 hvl3 hput
  simpa only [hEmem] using this

end Ccs
end Istl
