import Verif.Spec.OvlSchwarz
import Verif.Lemmas.Vec
import Verif.Lemmas.MatMat
import Verif.Props.C50

/-! # Subdomains and subdomain matrices of the overlapping Schwarz method -/

namespace Istl
namespace Ovl

variable {R V : Type}

/-! ### mapM -/

theorem mapM_ok {α β : Type} (f : α → Res β) (g : α → β) : ∀ l : List α, (∀ a ∈ l, f a = .ok (g a)) → l.mapM f = .ok (l.map g)
  | [], _ => rfl
  | a :: l, h => by
    rw [List.mapM_cons, h a (by simp), Res.ok_bind, mapM_ok f g l (fun b hb => h b (by simp [hb])), Res.ok_bind]
    rfl

theorem mapM_forall₂ {α β : Type} (f : α → Res β) : ∀ (l : List α) (r : List β), l.mapM f = .ok r → List.Forall₂ (fun a b => f a = .ok b) l r
  | [], r, h => by
    rw [List.mapM_nil] at h
    cases h; exact .nil
  | a :: l, r, h => by
    rw [List.mapM_cons] at h
    simp only [Res.bind_eq_ok] at h
    obtain ⟨b, hb, bs, hbs, h⟩ := h
    cases h
    exact .cons hb (mapM_forall₂ f l bs hbs)

theorem mapM_of_forall₂ {α β : Type} (f : α → Res β) : ∀ (l : List α) (r : List β), List.Forall₂ (fun a b => f a = .ok b) l r → l.mapM f = .ok r
  | _, _, .nil => rfl
  | a :: l, _ :: bs, .cons hb h => by
    rw [List.mapM_cons, hb, Res.ok_bind, mapM_of_forall₂ f l bs h, Res.ok_bind]
    rfl

/-! ### The subdomains -/

theorem insertRow_spec (row : Nat) : ∀ (ds : List Nat) (sub : List (List Nat)), (∀ d ∈ ds, d < sub.length) →
    (∀ s ∈ sub, s.Pairwise (· < ·)) →
    ∃ sub', insertRow row ds sub = .ok sub' ∧ sub'.length = sub.length ∧ (∀ s ∈ sub', s.Pairwise (· < ·)) ∧
      ∀ d x, x ∈ sub'.getD d [] ↔ x ∈ sub.getD d [] ∨ x = row ∧ d ∈ ds := by
  intro ds
  induction ds with
  | nil => intro sub _ h; exact ⟨sub, rfl, rfl, h, by simp⟩
  | cons d0 ds ih =>
    intro sub hd hs
    have h0 := hd d0 (by simp)
    have hsp := MatMat.setInsert_spec row sub[d0] (hs _ (List.getElem_mem h0))
    obtain ⟨sub', h1, h2, h3, h4⟩ := ih (sub.set d0 (MatMat.setInsert row sub[d0])) (by
      intro d h; rw [List.length_set]; exact hd d (by simp [h])) (by
      intro s h
      rcases List.mem_or_eq_of_mem_set h with h | rfl
      · exact hs s h
      · exact hsp.1)
    refine ⟨sub', ?_, by rw [h2, List.length_set], h3, ?_⟩
    · unfold insertRow at h1 ⊢
      rw [List.foldlM_cons, rd_lt h0, Res.ok_bind, wr_lt _ h0, Res.ok_bind]
      exact h1
    · intro d x
      rw [h4]
      by_cases e : d = d0
      · subst e
        rw [List.getD_eq_getElem?_getD, List.getElem?_set_self h0, Option.getD_some, hsp.2]
        rw [List.getD_eq_getElem?_getD, List.getElem?_eq_getElem h0, Option.getD_some]
        simp only [List.mem_cons, true_or, and_true]
        tauto
      · rw [List.getD_eq_getElem?_getD, List.getElem?_set_ne (fun h => e h.symm), ← List.getD_eq_getElem?_getD]
        simp [e]

theorem insertRows_spec : ∀ (r2d : List (List Nat)) (row : Nat) (sub : List (List Nat)), (∀ ds ∈ r2d, ∀ d ∈ ds, d < sub.length) →
    (∀ s ∈ sub, s.Pairwise (· < ·)) →
    ∃ sub', insertRows row r2d sub = .ok sub' ∧ sub'.length = sub.length ∧ (∀ s ∈ sub', s.Pairwise (· < ·)) ∧
      ∀ d x, x ∈ sub'.getD d [] ↔ x ∈ sub.getD d [] ∨ ∃ k, x = row + k ∧ ∃ (h : k < r2d.length), d ∈ r2d[k] := by
  intro r2d
  induction r2d with
  | nil => intro row sub _ h; exact ⟨sub, rfl, rfl, h, by simp⟩
  | cons ds r2d ih =>
    intro row sub hd hs
    obtain ⟨s1, a1, a2, a3, a4⟩ := insertRow_spec row ds sub (hd ds (by simp)) hs
    obtain ⟨s2, b1, b2, b3, b4⟩ := ih (row + 1) s1 (fun es h d hd' => by rw [a2]; exact hd es (by simp [h]) d hd') a3
    refine ⟨s2, ?_, by omega, b3, ?_⟩
    · simp only [insertRows, a1, Res.ok_bind, b1]
    · intro d x
      rw [b4, a4, or_assoc]
      refine or_congr Iff.rfl ?_
      constructor
      · rintro (⟨rfl, h⟩ | ⟨k, rfl, hk, h⟩)
        · exact ⟨0, by simp, by simp, by simpa using h⟩
        · exact ⟨k + 1, by omega, by simpa using hk, by simpa using h⟩
      · rintro ⟨k, rfl, hk, h⟩
        cases k with
        | zero => left; exact ⟨by simp, by simpa using h⟩
        | succ k => right; exact ⟨k, by omega, by simpa using hk, by simpa using h⟩

theorem foldl_max_le (l : List Nat) : ∀ m, m ≤ l.foldl (fun m d => max m d) m ∧ ∀ d ∈ l, d ≤ l.foldl (fun m d => max m d) m := by
  induction l with
  | nil => intro m; simp
  | cons a l ih =>
    intro m
    obtain ⟨h1, h2⟩ := ih (max m a)
    refine ⟨by simp only [List.foldl_cons]; omega, ?_⟩
    intro d hd
    rcases List.mem_cons.1 hd with rfl | hd
    · simp only [List.foldl_cons]; omega
    · exact h2 d hd

theorem foldl_max_mem (l : List Nat) : ∀ m, l.foldl (fun m d => max m d) m = m ∨ l.foldl (fun m d => max m d) m ∈ l := by
  induction l with
  | nil => intro m; simp
  | cons a l ih =>
    intro m
    rcases ih (max m a) with h | h
    · simp only [List.foldl_cons, h, List.mem_cons]
      omega
    · right; simp only [List.foldl_cons, List.mem_cons]; right; exact h

theorem foldl_flatten (r2d : List (List Nat)) : ∀ m, r2d.foldl (fun m ds => ds.foldl (fun m d => max m d) m) m =
    r2d.flatten.foldl (fun m d => max m d) m := by
  induction r2d with
  | nil => intro m; rfl
  | cons a l ih => intro m; simp only [List.foldl_cons, List.flatten_cons, List.foldl_append]; exact ih _

theorem countDomains_eq (r2d : List (List Nat)) : countDomains r2d = r2d.flatten.foldl (fun m d => max m d) 0 + 1 := by
  rw [countDomains, foldl_flatten]

theorem domainsOfRows_spec (r2d : List (List Nat)) :
    ∃ doms, domainsOfRows r2d = .ok doms ∧ doms.length = countDomains r2d ∧ (∀ D ∈ doms, D.Pairwise (· < ·)) ∧
      ∀ d x, x ∈ doms.getD d [] ↔ ∃ (h : x < r2d.length), d ∈ r2d[x] := by
  obtain ⟨s, h1, h2, h3, h4⟩ := insertRows_spec r2d 0 (List.replicate (countDomains r2d) []) (by
    intro ds hds d hd
    rw [List.length_replicate, countDomains_eq]
    have := (foldl_max_le r2d.flatten 0).2 d (List.mem_flatten.2 ⟨ds, hds, hd⟩)
    omega) (by
    intro s hs
    rw [List.eq_of_mem_replicate hs]
    exact .nil)
  refine ⟨s, h1, by rw [h2, List.length_replicate], h3, ?_⟩
  intro d x
  rw [h4]
  constructor
  · rintro (h | ⟨k, rfl, hk, h⟩)
    · exfalso
      rw [List.getD_eq_getElem?_getD, List.getElem?_replicate] at h
      split at h <;> simp at h
    · exact ⟨by simpa using hk, by simpa using h⟩
  · rintro ⟨hk, h⟩
    exact .inr ⟨x, by simp, hk, h⟩

theorem maxLength_ge (doms : List (List Nat)) {D : List Nat} (h : D ∈ doms) : D.length ≤ maxLength doms := by
  have e : ∀ (l : List (List Nat)) (m : Nat), l.foldl (fun m d => max m d.length) m = (l.map List.length).foldl (fun m d => max m d) m := by
    intro l
    induction l with
    | nil => intro m; rfl
    | cons a l ih => intro m; simp only [List.foldl_cons, List.map_cons]; exact ih _
  rw [maxLength, e]
  exact (foldl_max_le _ 0).2 _ (List.mem_map_of_mem h)

/-! ### Subdomain matrices -/

theorem findLocal_some {D : List Nat} (hD : D.Pairwise (· < ·)) {g k : Nat} : findLocal D g = some k ↔ D[k]? = some g :=
  Amg.findIdx?_get D g (hD.imp (fun h => Nat.ne_of_lt h)) k

theorem findLocal_none {D : List Nat} {g : Nat} : findLocal D g = none ↔ g ∉ D := by
  unfold findLocal
  rw [List.findIdx?_eq_none_iff]
  constructor
  · intro h hg
    have := h g hg
    simp at this
  · intro h x hx
    simp only [beq_eq_false_iff_ne]
    rintro rfl; exact h hx

/-- the local row, written without the intermediate set -/
def localRow' (D : List Nat) (r : Row R) : Row R := r.filterMap fun e => (findLocal D e.1).map fun k => (k, e.2)

theorem findLocal_mono {D : List Nat} (hD : D.Pairwise (· < ·)) {g h a b : Nat} (hgh : g < h) (ha : findLocal D g = some a)
    (hb : findLocal D h = some b) : a < b := by
  rw [findLocal_some hD] at ha hb
  obtain ⟨ha1, rfl⟩ := List.getElem?_eq_some_iff.1 ha
  obtain ⟨hb1, rfl⟩ := List.getElem?_eq_some_iff.1 hb
  by_contra hc
  rcases Nat.lt_or_ge b a with h1 | h1
  · have := List.pairwise_iff_getElem.1 hD b a hb1 ha1 h1
    omega
  · have : a = b := by omega
    subst this
    omega

theorem localCols_map (D : List Nat) (r : Row R) : localCols D r = (localRow' D r).map Prod.fst := by
  unfold localCols localRow'
  induction r with
  | nil => rfl
  | cons e r ih =>
    cases h : findLocal D e.1 with
    | none => simp [h, ih]
    | some k => simp [h, ih]

theorem localVals_map (D : List Nat) (r : Row R) : localVals D r = (localRow' D r).map Prod.snd := by
  unfold localVals localRow'
  induction r with
  | nil => rfl
  | cons e r ih =>
    cases h : findLocal D e.1 with
    | none => simpa [h] using ih
    | some k => simpa [h] using ih

theorem localRow'_asc {D : List Nat} (hD : D.Pairwise (· < ·)) {r : Row R} (hr : r.Asc) : (localRow' D r).Asc := by
  unfold Row.Asc at *
  rw [← localCols_map]
  unfold localCols
  rw [List.pairwise_map] at hr
  refine List.Pairwise.filterMap _ ?_ hr
  intro e e' h k hk k' hk'
  exact findLocal_mono hD h hk hk'

theorem asSet_eq {l : List Nat} (h : l.Pairwise (· < ·)) : asSet l = l := by
  have key : ∀ (l s : List Nat), s.Pairwise (· < ·) → (l.foldl (fun s c => MatMat.setInsert c s) s).Pairwise (· < ·) ∧
      ∀ x, x ∈ l.foldl (fun s c => MatMat.setInsert c s) s ↔ x ∈ s ∨ x ∈ l := by
    intro l
    induction l with
    | nil => intro s hs; simpa using hs
    | cons a l ih =>
      intro s hs
      have h1 := MatMat.setInsert_spec a s hs
      obtain ⟨h2, h3⟩ := ih _ h1.1
      refine ⟨h2, fun x => ?_⟩
      rw [List.foldl_cons, h3, h1.2]
      simp only [List.mem_cons]
      tauto
  obtain ⟨h1, h2⟩ := key l [] .nil
  have hp : (asSet l).Perm l := (List.perm_ext_iff_of_nodup (h1.imp (fun h => Nat.ne_of_lt h)) (h.imp (fun h => Nat.ne_of_lt h))).2
    (fun x => by have := h2 x; simpa [asSet] using this)
  exact hp.eq_of_pairwise (fun a b _ _ h h' => absurd h (by omega)) h1 h

theorem fillRow_zip : ∀ (l : Row R), fillRow (l.map Prod.fst) (l.map Prod.snd) = .ok l
  | [] => rfl
  | e :: l => by
    simp only [List.map_cons, fillRow, fillRow_zip l, Res.ok_bind]

theorem localRow_eq {A : SpMat R} {D : List Nat} (hD : D.Pairwise (· < ·)) {g : Nat} (hg : g < A.n) (hr : (A.row g).Asc) :
    localRow A D g = .ok (localRow' D (A.row g)) := by
  have ha := localRow'_asc hD hr
  unfold Row.Asc at ha
  rw [← localCols_map] at ha
  unfold localRow
  rw [rowOf, if_pos hg, Res.ok_bind, asSet_eq ha, localCols_map, localVals_map]
  exact fillRow_zip _

theorem localRow'_mem {D : List Nat} (hD : D.Pairwise (· < ·)) {r : Row R} {k : Nat} {a : R} :
    (k, a) ∈ localRow' D r ↔ ∃ (h : k < D.length), (D[k], a) ∈ r := by
  unfold localRow'
  rw [List.mem_filterMap]
  constructor
  · rintro ⟨⟨j, v⟩, he, h⟩
    simp only [Option.map_eq_some_iff, Prod.mk.injEq] at h
    obtain ⟨k', hk, rfl, rfl⟩ := h
    rw [findLocal_some hD] at hk
    obtain ⟨h1, rfl⟩ := List.getElem?_eq_some_iff.1 hk
    exact ⟨h1, he⟩
  · rintro ⟨h, he⟩
    refine ⟨(D[k], a), he, ?_⟩
    have : findLocal D D[k] = some k := (findLocal_some hD).2 (List.getElem?_eq_getElem h)
    simp [this]

/-- the matrix of a subdomain -/
def localMat (A : SpMat R) (D : List Nat) : SpMat R :=
  { n := D.length, m := D.length, row := fun k => (D.map fun g => localRow' D (A.row g)).getD k [] }

theorem localMat_row (A : SpMat R) (D : List Nat) {k : Nat} (h : k < D.length) : (localMat A D).row k = localRow' D (A.row D[k]) := by
  simp [localMat, h]

/-- the bandwidth of a subdomain matrix -/
def bandOf (L : SpMat R) : Nat := (List.range L.n).foldl (fun m k => max m (rowOffset k ((L.row k).map Prod.fst))) 0

theorem copyToLocal_eq {A : SpMat R} {D : List Nat} (hD : D.Pairwise (· < ·)) (hg : ∀ g ∈ D, g < A.n ∧ (A.row g).Asc) :
    copyToLocal A D = .ok (localMat A D, bandOf (localMat A D)) := by
  unfold copyToLocal
  rw [mapM_ok (localRow A D) (fun g => localRow' D (A.row g)) D (fun g h => localRow_eq hD (hg g h).1 (hg g h).2), Res.ok_bind]
  rfl

theorem localMat_wf {A : SpMat R} {D : List Nat} (hD : D.Pairwise (· < ·)) (hg : ∀ g ∈ D, (A.row g).Asc) : (localMat A D).WF := by
  intro i hi
  have hi' : i < D.length := hi
  rw [localMat_row A D hi']
  refine ⟨localRow'_asc hD (hg _ (List.getElem_mem hi')), ?_⟩
  rintro ⟨k, a⟩ he
  obtain ⟨h, -⟩ := (localRow'_mem hD).1 he
  exact h

theorem localMat_has {A : SpMat R} {D : List Nat} (hD : D.Pairwise (· < ·)) {i k : Nat} (hi : i < D.length) (hk : k < D.length) :
    (localMat A D).Has i k ↔ (A.row D[i]).Has D[k] := by
  unfold SpMat.Has Row.Has
  rw [localMat_row A D hi]
  constructor
  · rintro ⟨-, b, hb⟩
    obtain ⟨_, h⟩ := (localRow'_mem hD).1 hb
    exact ⟨b, by assumption⟩
  · rintro ⟨b, hb⟩
    exact ⟨hi, b, (localRow'_mem hD).2 ⟨hk, hb⟩⟩

theorem localMat_entry [Zero R] {A : SpMat R} {D : List Nat} (hD : D.Pairwise (· < ·)) {i k : Nat} (hi : i < D.length) (hk : k < D.length)
    (hr : (A.row D[i]).Asc) : (localMat A D).entry i k = A.entry D[i] D[k] := by
  unfold SpMat.entry
  rw [localMat_row A D hi]
  by_cases h : (A.row D[i]).Has D[k]
  · obtain ⟨b, hb⟩ := h
    rw [Row.val_of_mem hr hb, Row.val_of_mem (localRow'_asc hD hr) ((localRow'_mem hD).2 ⟨hk, hb⟩)]
  · rw [Row.val_of_not_mem (fun b hb => h ⟨b, hb⟩), Row.val_of_not_mem]
    intro b hb
    obtain ⟨_, h'⟩ := (localRow'_mem hD).1 hb
    exact h ⟨b, by assumption⟩

/-! ### The bandwidth -/

theorem rowOffset_eq (k : Nat) (cols : List Nat) : rowOffset k cols = (cols.map fun c => (c - k) + (k - c)).foldl (fun m d => max m d) 0 := by
  unfold rowOffset
  rw [List.foldl_map]

theorem bandOf_eq (L : SpMat R) : bandOf L = ((List.range L.n).map fun k => rowOffset k ((L.row k).map Prod.fst)).foldl (fun m d => max m d) 0 := by
  unfold bandOf
  rw [List.foldl_map]

theorem bandOf_ge (L : SpMat R) {i j : Nat} (h : L.Has i j) : (j - i) + (i - j) ≤ bandOf L := by
  obtain ⟨hi, b, hb⟩ := h
  rw [bandOf_eq]
  refine le_trans ?_ ((foldl_max_le _ 0).2 (rowOffset i ((L.row i).map Prod.fst)) (List.mem_map.2 ⟨i, List.mem_range.2 hi, rfl⟩))
  rw [rowOffset_eq]
  exact (foldl_max_le _ 0).2 _ (List.mem_map.2 ⟨j, List.mem_map.2 ⟨(j, b), hb, rfl⟩, rfl⟩)

theorem bandOf_attained (L : SpMat R) (h : bandOf L ≠ 0) : ∃ i j, L.Has i j ∧ bandOf L = (j - i) + (i - j) := by
  rcases foldl_max_mem ((List.range L.n).map fun k => rowOffset k ((L.row k).map Prod.fst)) 0 with h1 | h1
  · exact absurd (bandOf_eq L ▸ h1) h
  · rw [← bandOf_eq] at h1
    obtain ⟨i, hi, e⟩ := List.mem_map.1 h1
    rw [← e, rowOffset_eq] at h ⊢
    rcases foldl_max_mem (((L.row i).map Prod.fst).map fun c => (c - i) + (i - c)) 0 with h2 | h2
    · exact absurd h2 h
    · obtain ⟨c, hc, e2⟩ := List.mem_map.1 h2
      obtain ⟨⟨c', b⟩, hb, rfl⟩ := List.mem_map.1 hc
      exact ⟨i, c', ⟨List.mem_range.1 hi, b, hb⟩, e2.symm⟩

end Ovl
end Istl
