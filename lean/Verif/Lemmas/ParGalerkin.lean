import Verif.Spec.ParGalerkin
import Verif.Lemmas.ParCoarsen2
import Verif.Lemmas.GalerkinPattern

/-! Pattern of the coarse matrix on several processes. -/

namespace Istl
namespace Amg
open Par MatMat

theorem overlapTest {A : PIS} (hA : PisOk A) (v : Nat) :
    inOverlap A v = true ↔ Foreign A v := by
  unfold inOverlap
  cases h : pairOf A v with
  | none =>
    have := pairOf_none.mp h
    simp only [Bool.false_eq_true, false_iff]
    rintro ⟨e, he, hl, -⟩
    exact this e he hl
  | some e =>
    obtain ⟨he, hl⟩ := (pairOf_some hA).mp h
    dsimp only
    constructor
    · intro hn
      refine ⟨e, he, hl, ?_⟩
      simpa [notOwner, isOwner] using hn
    · rintro ⟨f, hf, hfl, ha⟩
      have : f = e := List.inj_on_of_nodup_map hA.locs hf he (by rw [hfl, hl])
      subst this
      simpa [notOwner, isOwner] using ha

theorem mem_overlapVerts {A : PIS} (hA : PisOk A) {n v : Nat} : v ∈ overlapVerts A n ↔ v < n ∧ Foreign A v := by
  unfold overlapVerts
  rw [List.mem_filter, List.mem_range, overlapTest hA]

theorem visitNeighbours_spec (G : Graph) (agg : Nat → Agg) (u : Nat) (cur : List Nat) (hc : cur.Pairwise (· < ·)) :
    (visitNeighbours G agg u cur).Pairwise (· < ·) ∧
      ∀ b, b ∈ visitNeighbours G agg u cur ↔ (b ∈ cur ∨ ∃ t ∈ G.adj u, agg t = .id b) := by
  unfold visitNeighbours
  induction G.adj u generalizing cur with
  | nil => exact ⟨hc, by simp⟩
  | cons t ts ih =>
    rw [List.foldl_cons]
    cases ht : agg t with
    | unagg =>
      obtain ⟨h1, h2⟩ := ih cur hc
      simp only [connVisitor, ht] at h1 h2 ⊢
      refine ⟨h1, fun b => ?_⟩
      rw [h2 b]; simp [ht]
    | iso =>
      obtain ⟨h1, h2⟩ := ih cur hc
      simp only [connVisitor, ht] at h1 h2 ⊢
      refine ⟨h1, fun b => ?_⟩
      rw [h2 b]; simp [ht]
    | id c =>
      obtain ⟨s1, s2⟩ := setInsert_spec c cur hc
      obtain ⟨h1, h2⟩ := ih (setInsert c cur) s1
      simp only [connVisitor, ht] at h1 h2 ⊢
      refine ⟨h1, fun b => ?_⟩
      rw [h2 b, s2 b]
      simp only [List.mem_cons, exists_eq_or_imp, ht, Agg.id.injEq]
      constructor
      · rintro ((h | h) | h)
        · exact Or.inr (Or.inl h.symm)
        · exact Or.inl h
        · exact Or.inr (Or.inr h)
      · rintro (h | h | h)
        · exact Or.inl (Or.inr h)
        · exact Or.inl (Or.inl h.symm)
        · exact Or.inr h

theorem overlapLoop_spec (G : Graph) (agg : Nat → Agg) (a : Nat) (vs : List Nat) (s : PConSt) (hc : s.cur.Pairwise (· < ·)) :
    (overlapLoop G agg a vs s).rows = s.rows ∧
    (∃ pre, vs = pre ++ (overlapLoop G agg a vs s).seeds ∧ (∀ v ∈ pre, agg v = .id a) ∧
      (∀ v, (overlapLoop G agg a vs s).seeds.head? = some v → agg v ≠ .id a) ∧
      (overlapLoop G agg a vs s).cur.Pairwise (· < ·) ∧
      ∀ b, b ∈ (overlapLoop G agg a vs s).cur ↔ (b ∈ s.cur ∨ (b = a ∧ pre ≠ []) ∨ ∃ u ∈ pre, ∃ t ∈ G.adj u, agg t = .id b)) := by
  induction vs generalizing s with
  | nil =>
    unfold overlapLoop
    exact ⟨rfl, [], rfl, by simp, by simp, hc, by simp⟩
  | cons v vs ih =>
    unfold overlapLoop
    by_cases hv : agg v = .id a
    · rw [if_pos hv]
      obtain ⟨i1, i2⟩ := setInsert_spec a s.cur hc
      obtain ⟨v1, v2⟩ := visitNeighbours_spec G agg v (setInsert a s.cur) i1
      obtain ⟨h1, pre, h2, h3, h4, h5, h6⟩ :=
        ih { s with cur := visitNeighbours G agg v (setInsert a s.cur), mark := upd s.mark v true } v1
      refine ⟨h1, v :: pre, by rw [List.cons_append, ← h2], ?_, h4, h5, ?_⟩
      · intro w hw
        rcases List.mem_cons.mp hw with rfl | hw
        · exact hv
        · exact h3 w hw
      · intro b
        rw [h6 b, v2 b, i2 b]
        constructor
        · rintro (((h | h) | h) | ⟨h, -⟩ | ⟨u, hu, h⟩)
          · exact Or.inr (Or.inl ⟨h, by simp⟩)
          · exact Or.inl h
          · exact Or.inr (Or.inr ⟨v, by simp, h⟩)
          · exact Or.inr (Or.inl ⟨h, by simp⟩)
          · exact Or.inr (Or.inr ⟨u, by simp [hu], h⟩)
        · rintro (h | ⟨h, -⟩ | ⟨u, hu, h⟩)
          · exact Or.inl (Or.inl (Or.inr h))
          · exact Or.inl (Or.inl (Or.inl h))
          · rcases List.mem_cons.mp hu with rfl | hu
            · exact Or.inl (Or.inr h)
            · exact Or.inr (Or.inr ⟨u, hu, h⟩)
    · rw [if_neg hv]
      refine ⟨rfl, [], rfl, by simp, ?_, hc, by simp⟩
      intro w hw
      simp only [List.head?_cons, Option.some.injEq] at hw
      rw [← hw]; exact hv

/-- a finished row -/
def RowIs (G : Graph) (m : Nat → Agg) (a : Nat) (r : List Nat) : Prop :=
  r.Pairwise (· < ·) ∧ ∀ b, b ∈ r ↔ (b = a ∨ Coupled G m a b)

theorem rows_push {G : Graph} {m : Nat → Agg} {rows : List (List Nat)} {d : List Nat}
    (h : ∀ (a : Nat) (r : List Nat), rows[a]? = some r → RowIs G m a r) (hd : RowIs G m rows.length d) :
    ∀ (a : Nat) (r : List Nat), (rows ++ [d])[a]? = some r → RowIs G m a r := by
  intro a r hr
  by_cases ha : a < rows.length
  · rw [List.getElem?_append_left ha] at hr
    exact h a r hr
  · rw [List.getElem?_append_right (by omega)] at hr
    have ha' : a = rows.length := by
      by_contra hcon
      rw [List.getElem?_eq_none (by simp; omega)] at hr
      cases hr
    subst ha'
    simp at hr
    subst hr
    exact hd

/-- invariant of the first pass -/
structure OInv (G : Graph) (A : PIS) (m : Nat → Agg) (ov : List Nat) (i : Nat) (s : PConSt) : Prop where
  len : s.rows.length = numBelow (ownMap A m) i
  cur : s.cur = []
  iso : ∀ v, m v = .iso → s.mark v = true
  done : ∀ f v, v < G.n → IsFirst (ownMap A m) f → ownMap A m v = ownMap A m f → (s.mark v = true ↔ f < i)
  rows : ∀ (a : Nat) (r : List Nat), s.rows[a]? = some r → RowIs G m a r
  seeds : ∃ pre, ov = pre ++ s.seeds ∧ ∀ v ∈ pre, m v = .iso

theorem own_step {G : Graph} (hG : G.WF) {A : PIS} (hA : PisOk A) {m : Nat → Agg} {k N : Nat} (hO : OwnFirst G A m k N)
    {ov : List Nat} (hov : Sorted A G.n m ov) (novlp : Bool) {fuel : Nat} (hf : G.n + 1 ≤ fuel) {i : Nat} (hi : i < G.n) (s : PConSt)
    (h : OInv G A m ov i s) : ∃ s', ownStep G fuel A m N novlp s i = some (.ok s') ∧ OInv G A m ov (i + 1) s' := by
  have hskip : ¬ IsFirst (ownMap A m) i → OInv G A m ov (i + 1) s := by
    intro hnf
    refine ⟨by rw [numBelow_succ, if_neg hnf]; exact h.len, h.cur, h.iso, ?_, h.rows, h.seeds⟩
    intro f v hv hF e
    have : f ≠ i := fun hc => hnf (hc ▸ hF)
    rw [h.done f v hv hF e]; omega
  unfold ownStep
  by_cases hFo : Foreign A i
  · have hnf : ¬ IsFirst (ownMap A m) i := fun hc => hc.1 (by unfold ownMap; rw [if_pos hFo])
    refine ⟨s, ?_, hskip hnf⟩
    rw [if_pos ((overlapTest hA i).mpr hFo)]
    simp
  have hom : ownMap A m i = m i := by unfold ownMap; rw [if_neg hFo]
  by_cases hiso : m i = .iso
  · rw [if_pos (h.iso i hiso)]
    exact ⟨s, rfl, hskip fun hc => hc.1 (by rw [hom]; exact hiso)⟩
  obtain ⟨f, hfi, hF, e⟩ := exists_first (ownMap A m) i (by rw [hom]; exact hiso)
  rcases Nat.lt_or_ge f i with hlt | hge
  · rw [if_pos ((h.done f i hi hF e).mpr hlt)]
    exact ⟨s, rfl, hskip fun hc => by have := first_unique hF hc e.symm; omega⟩
  obtain rfl : f = i := by omega
  have hmf : s.mark f = false := by
    by_contra hcon
    have := (h.done f f hi hF rfl).mp (by simpa using hcon)
    omega
  rw [if_neg (by simp [hmf]), if_neg (fun hc => hFo ((overlapTest hA f).mp hc))]
  have hido := hO.numbered f hi hF
  have hid : m f = .id (numBelow (ownMap A m) f) := by rw [← hom]; exact hido
  have hltk : numBelow (ownMap A m) f < k := by rw [hO.count]; exact numBelow_lt _ hF hi
  have hclass : ∀ t, t < G.n → (m t = m f ↔ ownMap A m t = ownMap A m f) := by
    intro t ht
    by_cases hFt : Foreign A t
    · have h1 : ownMap A m t = .iso := by unfold ownMap; rw [if_pos hFt]
      rw [h1, hido, hid]
      constructor
      · intro hc
        rcases hO.foreign t ht hFt with h' | ⟨a, ha, -, h'⟩
        · rw [h'] at hc; cases hc
        · rw [h'] at hc
          injection hc with hc
          omega
      · intro hc; cases hc
    · have h1 : ownMap A m t = m t := by unfold ownMap; rw [if_neg hFt]
      rw [h1, hom]
  have hcls : ∀ t, t < G.n → m t = m f → s.mark t = false := by
    intro t ht e'
    by_contra hcon
    have := (h.done f t ht hF ((hclass t ht).mp e')).mp (by simpa using hcon)
    omega
  have hlen : s.rows.length < N := by
    rw [h.len]; have := hO.le; omega
  obtain ⟨hi1, hi2⟩ := setInsert_spec (numBelow (ownMap A m) f) s.cur (by rw [h.cur]; exact List.Pairwise.nil)
  obtain ⟨vis, d, sph, mark', e1, hm', hvis, hvlt, hJ⟩ := bfs_spec (start := f) (m0 := s.mark) (A0 := m) hG hi hmf
    (bob_conn G m (numBelow (ownMap A m) f) s.mark) (setInsert (numBelow (ownMap A m) f) s.cur) (fun _ => rfl)
    ⟨hi1, by intro b; rw [hi2, h.cur]; simp⟩ fuel hf
  have hvis' : ∀ t, t < G.n → (t ∈ vis ↔ m t = m f) := by
    intro t ht
    rw [hvis t]
    constructor
    · intro hr
      rcases Relation.ReflTransGen.cases_tail hr with hr | ⟨u, _, hs⟩
      · rw [hr]
      · rw [hid]; exact hs.2.1
    · intro e'
      have hr := hO.connected f t hi ht hF ((hclass t ht).mp e')
      have : ∀ w, Relation.ReflTransGen (fun u t => t ∈ G.adj u ∧ ownMap A m t = ownMap A m f) f w →
          Relation.ReflTransGen (BStep G (.id (numBelow (ownMap A m) f)) m s.mark) f w ∧ w < G.n := by
        intro w hw
        induction hw with
        | refl => exact ⟨.refl, hi⟩
        | tail _ hs ih =>
          have hl := hG _ ih.2 _ hs.1
          have e'' := (hclass _ hl).mpr hs.2
          exact ⟨ih.1.tail ⟨hs.1, by rw [← hid]; exact e'', hcls _ hl e''⟩, hl⟩
      exact (this t hr).1
  have hrow : RowIs G m s.rows.length d := by
    refine ⟨hJ.1, ?_⟩
    intro b
    rw [hJ.2 b, h.len]
    refine or_congr Iff.rfl ?_
    unfold edgeList Coupled
    constructor
    · rintro ⟨e, he, hb⟩
      obtain ⟨u, hu, hut⟩ := List.mem_flatMap.mp he
      obtain ⟨t, ht, rfl⟩ := List.mem_map.mp hut
      exact ⟨u, t, hvlt u hu, by rw [(hvis' u (hvlt u hu)).mp hu, hid], ht, hb⟩
    · rintro ⟨u, t, hu, hua, ht, hb⟩
      exact ⟨(u, t), List.mem_flatMap.mpr ⟨u, (hvis' u hu).mpr (by rw [hua, hid]), List.mem_map.mpr ⟨t, ht, rfl⟩⟩, hb⟩
  -- the ghosts
  have hgh : ∀ s1 : PConSt, s1.seeds = s.seeds → s1.rows = s.rows → ∃ sd, ghostStep G m N novlp s1 = .ok { s1 with seeds := sd } ∧
      ∃ pre, ov = pre ++ sd ∧ ∀ v ∈ pre, m v = .iso := by
    intro s1 hs1 hr1
    obtain ⟨pre, hpre, hpi⟩ := h.seeds
    unfold ghostStep
    cases novlp with
    | false => exact ⟨s.seeds, by rw [if_neg (by simp), ← hs1], pre, hpre, hpi⟩
    | true =>
      rw [if_pos rfl]
      cases hsd : s.seeds with
      | nil =>
        rw [hs1, hsd]
        exact ⟨[], by dsimp only; rw [← hsd, ← hs1], pre, by rw [hpre, hsd], hpi⟩
      | cons v vs =>
        rw [hs1, hsd]
        dsimp only
        by_cases hv : m v = .iso
        · rw [if_pos hv]
          refine ⟨vs, rfl, pre ++ [v], by rw [hpre, hsd]; simp, ?_⟩
          intro w hw
          rcases List.mem_append.mp hw with hw | hw
          · exact hpi w hw
          · rw [List.mem_singleton] at hw; rw [hw]; exact hv
        · rw [if_neg hv]
          have hvo : v ∈ ov := by rw [hpre, hsd]; simp
          obtain ⟨hvn, hvF⟩ := (mem_overlapVerts hA).mp (hov.1.mem_iff.mp hvo)
          unfold constructOverlap
          rw [hs1, hsd]
          dsimp only
          rw [if_neg (by
            rcases hO.foreign v hvn hvF with h' | ⟨a, ha, -, h'⟩
            · exact absurd h' hv
            · rw [h', hr1, h.len]
              intro hc
              injection hc with hc
              omega)]
          exact ⟨v :: vs, by rw [← hsd, ← hs1], pre, by rw [hpre, hsd], hpi⟩
  rw [hid]
  dsimp only
  rw [if_pos hlen, e1]
  obtain ⟨sd, hsd, hpre⟩ := hgh { s with mark := mark', cur := d } rfl rfl
  refine ⟨⟨mark', s.rows ++ [d], [], sd⟩, ?_, ?_, rfl, ?_, ?_, rows_push h.rows hrow, hpre⟩
  · simp only [Option.map_some, hsd, Res.ok_bind]
    unfold nextRow
    rw [if_pos hlen]
  · dsimp only
    rw [List.length_append, numBelow_succ, if_pos hF, h.len]; rfl
  · intro v hv
    exact (hm' v).mpr (Or.inl (h.iso v hv))
  · intro g v hv hG' e'
    dsimp only
    rw [hm' v, h.done g v hv hG' e', hvis' v hv, hclass v hv]
    constructor
    · rintro (h1 | h1)
      · omega
      · have := first_unique hG' hF (by rw [← e', h1]); omega
    · intro h1
      by_cases hgf : g = f
      · subst hgf; exact Or.inr e'
      · exact Or.inl (by omega)

theorem own_loop {G : Graph} (hG : G.WF) {A : PIS} (hA : PisOk A) {m : Nat → Agg} {k N : Nat} (hO : OwnFirst G A m k N)
    {ov : List Nat} (hov : Sorted A G.n m ov) (novlp : Bool) {fuel : Nat} (hf : G.n + 1 ≤ fuel) : ∀ (len i : Nat) (s : PConSt),
    i + len = G.n → OInv G A m ov i s →
    ∃ s', ownLoop G fuel A m N novlp (List.range' i len) s = some (.ok s') ∧ OInv G A m ov G.n s'
  | 0, i, s, hi, h => by
    obtain rfl : i = G.n := by omega
    exact ⟨s, rfl, h⟩
  | len + 1, i, s, hi, h => by
    obtain ⟨s', e, h'⟩ := own_step hG hA hO hov novlp hf (show i < G.n by omega) s h
    obtain ⟨s'', e', h''⟩ := own_loop hG hA hO hov novlp hf len (i + 1) s' (by omega) h'
    refine ⟨s'', ?_, h''⟩
    rw [List.range'_succ]
    unfold ownLoop
    rw [e]
    exact e'

/-- invariant of the second pass -/
structure FInv (G : Graph) (A : PIS) (m : Nat → Agg) (k N : Nat) (s : PConSt) : Prop where
  low : k ≤ s.rows.length
  high : s.rows.length ≤ N
  cur : s.cur = []
  rows : ∀ (a : Nat) (r : List Nat), s.rows[a]? = some r → RowIs G m a r
  sorted : s.seeds.Pairwise fun u v => aggLe (m u) (m v)
  sub : ∀ v ∈ s.seeds, v < G.n ∧ Foreign A v
  ge : ∀ v ∈ s.seeds, ∀ a, m v = .id a → s.rows.length ≤ a
  all : ∀ v, v < G.n → Foreign A v → ∀ a, m v = .id a → s.rows.length ≤ a → v ∈ s.seeds

theorem foreign_loop {G : Graph} (hG : G.WF) {A : PIS} {m : Nat → Agg} {k N : Nat} (hO : OwnFirst G A m k N) :
    ∀ (fuel : Nat) (s : PConSt), s.seeds.length < fuel → FInv G A m k N s →
      ∃ s', foreignLoop G m N fuel s = some (.ok s') ∧ s'.rows.length = N ∧
        ∀ (a : Nat) (r : List Nat), s'.rows[a]? = some r → RowIs G m a r
  | 0, s, hf, _ => by omega
  | fuel + 1, s, hf, h => by
    unfold foreignLoop
    cases hsd : s.seeds with
    | nil =>
      refine ⟨s, rfl, ?_, h.rows⟩
      by_contra hne
      have := h.high
      obtain ⟨v, hv, hF, hid⟩ := hO.used s.rows.length h.low (by omega)
      have := h.all v hv hF _ hid (Nat.le_refl _)
      rw [hsd] at this
      cases this
    | cons v vs =>
      dsimp only
      have hvm : v ∈ s.seeds := by rw [hsd]; simp
      by_cases hv : m v = .iso
      · rw [if_pos hv]
        refine foreign_loop hG hO fuel { s with seeds := vs } (by rw [hsd] at hf; simp at hf; exact hf) ?_
        refine ⟨h.low, h.high, h.cur, h.rows, ?_, ?_, ?_, ?_⟩
        · have := h.sorted; rw [hsd] at this; exact this.of_cons
        · intro w hw; exact h.sub w (by rw [hsd]; simp [hw])
        · intro w hw; exact h.ge w (by rw [hsd]; simp [hw])
        · intro w hw hF a ha hl
          have := h.all w hw hF a ha hl
          rw [hsd] at this
          rcases List.mem_cons.mp this with rfl | h'
          · rw [hv] at ha; cases ha
          · exact h'
      · rw [if_neg hv]
        obtain ⟨hvn, hvF⟩ := h.sub v hvm
        obtain ⟨b, hb, hbN, hvb⟩ : ∃ a, k ≤ a ∧ a < N ∧ m v = .id a := by
          rcases hO.foreign v hvn hvF with h' | h'
          · exact absurd h' hv
          · exact h'
        have hbl := h.ge v hvm b hvb
        -- the current row is that of the aggregate
        obtain ⟨w, hw, hwF, hwid⟩ := hO.used s.rows.length h.low (by omega)
        have hws := h.all w hw hwF _ hwid (Nat.le_refl _)
        have hbe : b = s.rows.length := by
          rw [hsd] at hws
          rcases List.mem_cons.mp hws with rfl | h'
          · rw [hvb] at hwid
            injection hwid
          · have hs := h.sorted
            rw [hsd] at hs
            have := (List.pairwise_cons.mp hs).1 w h'
            rw [hvb, hwid] at this
            change b ≤ s.rows.length at this
            omega
        subst hbe
        have hcon : constructOverlap G m N s = .ok (overlapLoop G m s.rows.length s.seeds s) := by
          unfold constructOverlap
          rw [hsd]
          dsimp only
          rw [if_pos hvb, if_pos hbN]
        rw [hcon]
        simp only [Res.ok_bind]
        obtain ⟨o1, pre, o2, o3, o4, o5, o6⟩ := overlapLoop_spec G m s.rows.length s.seeds s (by rw [h.cur]; exact List.Pairwise.nil)
        set s1 := overlapLoop G m s.rows.length s.seeds s with hs1
        have hnext : nextRow N s1 = .ok { s1 with rows := s1.rows ++ [s1.cur], cur := [] } := by
          unfold nextRow
          rw [if_pos (by rw [o1]; exact hbN)]
        rw [hnext]
        dsimp only
        have hpre : pre ≠ [] := by
          rintro rfl
          rw [List.nil_append, hsd] at o2
          exact o4 v (by rw [← o2]; rfl) hvb
        have hsort := h.sorted
        rw [o2] at hsort
        have hgt : ∀ x ∈ s1.seeds, ∀ a, m x = .id a → s.rows.length + 1 ≤ a := by
          intro x hx a hxa
          have hge := h.ge x (by rw [o2]; exact List.mem_append_right _ hx) a hxa
          by_contra hcon
          have hae : a = s.rows.length := by omega
          subst hae
          cases hs : s1.seeds with
          | nil => rw [hs] at hx; cases hx
          | cons y ys =>
            have hy := o4 y (by rw [hs]; rfl)
            rw [hs] at hx
            rcases List.mem_cons.mp hx with rfl | hx
            · exact hy hxa
            · have hp := (List.pairwise_append.mp hsort).2.1
              rw [hs] at hp
              have hle := (List.pairwise_cons.mp hp).1 x hx
              have hyn := h.sub y (by rw [o2, hs]; simp)
              rw [hxa] at hle
              rcases hO.foreign y hyn.1 hyn.2 with h' | ⟨c, -, -, h'⟩
              · rw [h'] at hle; exact hle
              · rw [h'] at hle
                change c ≤ s.rows.length at hle
                have := h.ge y (by rw [o2, hs]; simp) c h'
                apply hy
                rw [h']
                congr 1
                omega
        have hcls : ∀ u, u < G.n → (u ∈ pre ↔ m u = .id s.rows.length) := by
          intro u hu
          refine ⟨o3 u, fun hid => ?_⟩
          have hF : Foreign A u := by
            by_contra hF
            have hom : ownMap A m u = m u := by unfold ownMap; rw [if_neg hF]
            obtain ⟨f, hfu, hFf, e⟩ := exists_first (ownMap A m) u (by rw [hom, hid]; simp)
            have h1 := hO.numbered f (by omega) hFf
            rw [← e, hom, hid] at h1
            injection h1 with h1
            have h2 := numBelow_lt (ownMap A m) hFf (show f < G.n by omega)
            rw [← hO.count] at h2
            have := h.low
            omega
          have := h.all u hu hF _ hid (Nat.le_refl _)
          rw [o2] at this
          rcases List.mem_append.mp this with h' | h'
          · exact h'
          · have := hgt u h' _ hid
            omega
        have hrow : RowIs G m s1.rows.length s1.cur := by
          rw [o1]
          refine ⟨o5, fun b => ?_⟩
          rw [o6 b, h.cur]
          unfold Coupled
          constructor
          · rintro (h' | ⟨h', -⟩ | ⟨u, hu, t, ht, h'⟩)
            · cases h'
            · exact Or.inl h'
            · have hun := (h.sub u (by rw [o2]; exact List.mem_append_left _ hu)).1
              exact Or.inr ⟨u, t, hun, o3 u hu, ht, h'⟩
          · rintro (h' | ⟨u, t, hu, hid, ht, h'⟩)
            · exact Or.inr (Or.inl ⟨h', hpre⟩)
            · exact Or.inr (Or.inr ⟨u, (hcls u hu).mpr hid, t, ht, h'⟩)
        refine foreign_loop hG hO fuel _ ?_ ⟨?_, ?_, rfl, rows_push (by rw [o1]; exact h.rows) hrow, ?_, ?_, ?_, ?_⟩
        · dsimp only
          have : s.seeds.length = pre.length + s1.seeds.length := by rw [o2, List.length_append]
          have hp : 0 < pre.length := List.length_pos_iff.mpr hpre
          omega
        · dsimp only; rw [List.length_append, o1]; have := h.low; omega
        · dsimp only; rw [List.length_append, o1]; simp; omega
        · exact (List.pairwise_append.mp hsort).2.1
        · intro x hx; exact h.sub x (by rw [o2]; exact List.mem_append_right _ hx)
        · intro x hx a hxa
          dsimp only
          rw [List.length_append, o1]
          exact hgt x hx a hxa
        · intro x hx hF a hxa hl
          dsimp only at hl ⊢
          rw [List.length_append, o1] at hl
          simp only [List.length_cons, List.length_nil] at hl
          have := h.all x hx hF a hxa (by omega)
          rw [o2] at this
          rcases List.mem_append.mp this with h' | h'
          · have := o3 x h'
            rw [hxa] at this
            injection this with this
            omega
          · exact h'

theorem parBuild_spec {G : Graph} (hG : G.WF) {A : PIS} (hA : PisOk A) {m : Nat → Agg} {k N : Nat} (hO : OwnFirst G A m k N)
    {ov : List Nat} (hov : Sorted A G.n m ov) (novlp : Bool) {fuel : Nat} (hf : G.n + 1 ≤ fuel) :
    ∃ rows, parBuild G fuel A m N novlp ov = some (.ok rows) ∧ rows.length = N ∧
      ∀ (a : Nat) (r : List Nat), rows[a]? = some r → RowIs G m a r := by
  obtain ⟨s, e, h⟩ := own_loop hG hA hO hov novlp hf G.n 0 ⟨fun v => decide (m v = .iso), [], [], ov⟩ (by omega) (by
    refine ⟨by simp [numBelow], rfl, by intro v hv; simp [hv], ?_, by intro a r hr; simp at hr, [], rfl, by simp⟩
    intro f v _ hF e
    have : m v ≠ .iso := by
      intro hc
      have := hF.1
      rw [← e] at this
      unfold ownMap at this
      split at this
      · exact this rfl
      · exact this hc
    simp [this])
  obtain ⟨pre, hpre, hpi⟩ := h.seeds
  have hlen : s.rows.length = k := by rw [h.len, hO.count]
  obtain ⟨s', e', h1, h2⟩ := foreign_loop hG hO (ov.length + N + 1) s (by
      have := congrArg List.length hpre
      rw [List.length_append] at this
      omega) (by
    have hsort := hov.2
    rw [hpre] at hsort
    refine ⟨by omega, by rw [hlen]; exact hO.le, h.cur, h.rows, (List.pairwise_append.mp hsort).2.1, ?_, ?_, ?_⟩
    · intro v hv
      exact (mem_overlapVerts hA).mp (hov.1.mem_iff.mp (by rw [hpre]; exact List.mem_append_right _ hv))
    · intro v hv a ha
      obtain ⟨hvn, hF⟩ := (mem_overlapVerts hA).mp (hov.1.mem_iff.mp (by rw [hpre]; exact List.mem_append_right _ hv))
      rcases hO.foreign v hvn hF with h' | ⟨c, hc, -, h'⟩
      · rw [h'] at ha; cases ha
      · rw [h'] at ha
        injection ha with ha
        omega
    · intro v hv hF a ha _
      have : v ∈ ov := hov.1.mem_iff.mpr ((mem_overlapVerts hA).mpr ⟨hv, hF⟩)
      rw [hpre] at this
      rcases List.mem_append.mp this with h' | h'
      · rw [hpi v h'] at ha; cases ha
      · exact h')
  refine ⟨s'.rows, ?_, h1, h2⟩
  unfold parBuild
  rw [List.range_eq_range', e]
  dsimp only
  rw [e']
  rfl

end Amg
end Istl
