import Verif.Model.Umf
import Verif.Lemmas.Ccs
import Verif.Props.C40

/-! # C49: the matrix handed to UMFPack is the flat matrix without the ignored rows and columns -/

namespace Istl
namespace Umf
open ForEach Ccs

variable {K : Type}

theorem foldl_res_inv {E S : Type} (F : Res S → E → Res S) (I : List E → S → Prop) (l : List E) (s : S) (h0 : I [] s)
    (hs : ∀ P e rest s, l = P ++ e :: rest → I P s → ∃ s', F (.ok s) e = .ok s' ∧ I (P ++ [e]) s') :
    ∃ s', l.foldl F (.ok s) = .ok s' ∧ I l s' := by
  suffices h : ∀ rest P s, l = P ++ rest → I P s → ∃ s', rest.foldl F (.ok s) = .ok s' ∧ I l s' from h l [] s rfl h0
  intro rest
  induction rest with
  | nil => intro P s e hI; exact ⟨s, rfl, by rw [e, List.append_nil]; exact hI⟩
  | cons e rest ih =>
    intro P s el hI
    obtain ⟨s1, h1, i1⟩ := hs P e rest s el hI
    obtain ⟨s2, h2, i2⟩ := ih (P ++ [e]) s1 (by simp [el]) i1
    exact ⟨s2, by rw [List.foldl_cons, h1]; exact h2, i2⟩

/-- kept entries with their new position -/
def tr (kept : Nat → Bool) (rank : Nat → Nat) (t : K × Nat × Nat) : Option (Nat × Nat × K) :=
  if kept t.2.1 && kept t.2.2 then some (rank t.2.1, rank t.2.2, t.1) else none

theorem tr_pos {kept : Nat → Bool} {rank : Nat → Nat} {t : K × Nat × Nat} (h : (kept t.2.1 && kept t.2.2) = true) :
    tr kept rank t = some (rank t.2.1, rank t.2.2, t.1) := by rw [tr, if_pos h]

theorem tr_neg {kept : Nat → Bool} {rank : Nat → Nat} {t : K × Nat × Nat} (h : ¬(kept t.2.1 && kept t.2.2) = true) :
    tr kept rank t = none := by rw [tr, if_neg h]

/-- What the bit vector means. -/
structure Sel (bits : Option (List Bool)) (sub : List (Option Nat)) (R C cols : Nat) (kept : Nat → Bool)
    (rank : Nat → Nat) : Prop where
  skip : ∀ r c, r < R → c < C → Umf.skip bits r c = .ok (!(kept r && kept c))
  pickR : ∀ r, r < R → kept r = true → pick bits sub r = .ok (rank r)
  pickC : ∀ c, c < C → kept c = true → pick bits sub c = .ok (rank c)
  lt : ∀ c, c < C → kept c = true → rank c < cols
  mono : ∀ r r', r < r' → kept r = true → rank r < rank r'

/-- filling -/
theorem fillAll_spec (cols : Nat) (E : List (Nat × Nat × K)) (hE : ∀ e ∈ E, e.2.1 < cols) (cs : List Nat)
    (hcs : VecIs cs (cols + 1) (startOf E)) (s : Fill K)
    (hmk : VecIs s.pos cols (fun _ => 0)) (n : Nat) (hn : E.length ≤ n) (hri : s.rowindex.length = n)
    (hvs : s.values.length = n) :
    ∃ s', E.foldlM (fun s e => fillAt cs e.2.2 e.1 e.2.1 s) s = .ok s' ∧
      s'.rowindex.length = n ∧ s'.values.length = n ∧
      ∀ c, c < cols → ∀ k e, (colOf c E)[k]? = some e →
        s'.rowindex[startOf E c + k]? = some e.1 ∧ s'.values[startOf E c + k]? = some e.2.2 := by
  obtain ⟨s', e, h2, h3, h4, h5⟩ := foldlM_inv (fun s e => fillAt cs e.2.2 e.1 e.2.1 s)
    (fun P s' =>
      s'.rowindex.length = n ∧ s'.values.length = n ∧
      VecIs s'.pos cols (fun c => (colOf c P).length) ∧
      ∀ c, c < cols → ∀ k e, (colOf c P)[k]? = some e →
        s'.rowindex[startOf E c + k]? = some e.1 ∧ s'.values[startOf E c + k]? = some e.2.2) E s
    ⟨hri, hvs, by simpa [colOf] using hmk, by simp [colOf]⟩ (by
      intro P e rest s' hl ⟨h2, h3, h4, h5⟩
      have hc0 : e.2.1 < cols := hE e (by simp [hl])
      have hcolE : (colOf e.2.1 P).length + 1 ≤ (colOf e.2.1 E).length := by
        rw [hl, colOf_append]
        simp [colOf]
      have hp : startOf E e.2.1 + (colOf e.2.1 P).length < startOf E (e.2.1 + 1) := by rw [startOf_succ]; omega
      have hp2 : startOf E (e.2.1 + 1) ≤ E.length := by
        rw [← startOf_total E cols hE]; exact startOf_mono E hc0
      have hr := h4.2 e.2.1 hc0
      dsimp only at hr
      obtain ⟨mk, e3, hv⟩ := h4.wr ((colOf e.2.1 P).length + 1) hc0
      have hr0 := hcs.2 e.2.1 (by omega)
      set p := startOf E e.2.1 + (colOf e.2.1 P).length with hpdef
      have hpr : p < s'.rowindex.length := by omega
      have hpv : p < s'.values.length := by omega
      refine ⟨⟨s'.rowindex.set p e.1, s'.values.set p e.2.2, mk⟩,
        by simp [fillAt, hr0, hr, wr_lt _ hpr, wr_lt _ hpv, e3, ← hpdef], by simpa using h2, by simpa using h3, hv.congr ?_, ?_⟩
      · intro c _
        rw [colOf_append]
        by_cases hc : c = e.2.1
        · subst hc; simp [colOf]
        · simp [upd_ne _ _ hc, colOf, Ne.symm hc]
      · intro c hc k x hx
        dsimp only
        rw [colOf_append] at hx
        by_cases hkn : c = e.2.1 ∧ k = (colOf e.2.1 P).length
        · obtain ⟨rfl, rfl⟩ := hkn
          have : x = e := by simpa [colOf] using hx.symm
          subst this
          simp [← hpdef, hpr, hpv]
        · have hold : (colOf c P)[k]? = some x := by
            by_cases hce : c = e.2.1
            · subst hce
              rw [List.getElem?_append] at hx
              split at hx
              · exact hx
              · rename_i hge
                have : k ≠ (colOf e.2.1 P).length := fun h => hkn ⟨rfl, h⟩
                rw [show colOf e.2.1 [e] = [e] by simp [colOf], List.getElem?_eq_none (by simp; omega)] at hx
                cases hx
            · rw [show colOf c [e] = [] by simp [colOf, Ne.symm hce], List.append_nil] at hx
              exact hx
          have hklt : k < (colOf c P).length := by
            by_contra h
            rw [List.getElem?_eq_none (by omega)] at hold
            cases hold
          have hne : p ≠ startOf E c + k := by
            have hkE : (colOf c P).length ≤ (colOf c E).length := by
              rw [hl, colOf_append]; simp
            rcases lt_trichotomy c e.2.1 with h | h | h
            · have := startOf_mono E (show c + 1 ≤ e.2.1 from h)
              rw [startOf_succ] at this
              omega
            · subst h; omega
            · have := startOf_mono E (show e.2.1 + 1 ≤ c from h)
              omega
          obtain ⟨g1, g2⟩ := h5 c hc k x hold
          rw [List.getElem?_set_ne hne, List.getElem?_set_ne hne]
          exact ⟨g1, g2⟩)
  exact ⟨s', e, h2, h3, h5⟩

/-- prefix sums -/
theorem acc_spec (cols : Nat) (E : List (Nat × Nat × K)) (cs : List Nat)
    (hcs : VecIs cs (cols + 1) (fun q => if q = 0 then 0 else (colOf (q - 1) E).length)) :
    ∃ cs', forRangeM cols (fun i cs => accStep i cs) cs = .ok cs' ∧ VecIs cs' (cols + 1) (startOf E) := by
  obtain ⟨cs', e, h⟩ := forRangeM_inv cols (fun i cs => accStep i cs)
    (fun i cs => VecIs cs (cols + 1) (fun q => if q ≤ i then startOf E q else (colOf (q - 1) E).length)) cs
    (hcs.congr (by
      intro q _
      by_cases hq : q = 0
      · subst hq; simp [startOf]
      · simp [hq])) (by
      intro i s hi hs
      have h1 := hs.2 i (by omega)
      have h2 := hs.2 (i + 1) (by omega)
      dsimp only at h1 h2
      rw [if_pos le_rfl] at h1
      rw [if_neg (by omega), Nat.add_sub_cancel] at h2
      obtain ⟨s', e, hv⟩ := hs.wr ((colOf i E).length + startOf E i) (show i + 1 < cols + 1 by omega)
      refine ⟨s', by simp [accStep, h1, h2, e], hv.congr ?_⟩
      intro q _
      by_cases hq : q = i + 1
      · subst hq; simp [startOf_succ, Nat.add_comm]
      · rw [upd_ne _ _ hq]
        have : q ≤ i ↔ q ≤ i + 1 := by omega
        simp [this])
  exact ⟨cs', e, h.congr (by intro q hq; rw [if_pos (by omega)])⟩

theorem load_spec (v0 : Nat → K) (i0 : Nat → Nat) (A : NMat K) (R C : Nat) (T : List (K × Nat × Nat)) (hT : Trav A R C T)
    (bits : Option (List Bool)) (ignored : Nat) (sub : List (Option Nat)) (kept : Nat → Bool) (rank : Nat → Nat)
    (hsub : subsOf bits R = .ok sub) (hsel : Sel bits sub R C (C - ignored) kept rank) :
    ∃ X, load v0 i0 A bits ignored = .ok X ∧ X.N = R - ignored ∧ X.M = C - ignored ∧
      X.Represents (C - ignored) (fun r c v => (r, c, v) ∈ T.filterMap (tr kept rank)) := by
  set E := T.filterMap (tr kept rank) with hEdef
  set cols := C - ignored with hcols
  have hskip : ∀ t ∈ T, Umf.skip bits (0 + t.2.1) (0 + t.2.2) = .ok (!(kept t.2.1 && kept t.2.2)) := by
    intro t ht
    rw [Nat.zero_add, Nat.zero_add]
    exact hsel.skip _ _ (hT.bound t ht).1 (hT.bound t ht).2
  have hE : ∀ e ∈ E, e.2.1 < cols := by
    intro e he
    obtain ⟨t, ht, hte⟩ := List.mem_filterMap.mp he
    by_cases hk : (kept t.2.1 && kept t.2.2) = true
    · rw [tr_pos hk] at hte
      cases hte
      rw [Bool.and_eq_true] at hk
      exact hsel.lt _ (hT.bound t ht).2 hk.2
    · rw [tr_neg hk] at hte; cases hte
  have hpw : E.Pairwise (fun e e' => e.2.1 = e'.2.1 → e.1 < e'.1) := by
    rw [hEdef, List.pairwise_filterMap]
    refine hT.order.imp ?_
    intro t t' h e he e' he' hc
    by_cases hk : (kept t.2.1 && kept t.2.2) = true
    · by_cases hk' : (kept t'.2.1 && kept t'.2.2) = true
      · rw [tr_pos hk] at he
        rw [tr_pos hk'] at he'
        cases he; cases he'
        rw [Bool.and_eq_true] at hk hk'
        dsimp only at hc ⊢
        refine hsel.mono _ _ (h ?_) hk.1
        rcases lt_trichotomy t.2.2 t'.2.2 with hl | hl | hl
        · have := hsel.mono _ _ hl hk.2; omega
        · exact hl
        · have := hsel.mono _ _ hl hk'.2; omega
      · rw [tr_neg hk'] at he'; cases he'
    · rw [tr_neg hk] at he; cases he
  -- first traversal
  obtain ⟨k1, e1, hk1⟩ := foldl_res_inv (fun st (t : K × Nat × Nat) => countOne bits (0 + t.2.1) (0 + t.2.2) st)
    (fun P k => k = (P.filterMap (tr kept rank)).length) T 0 rfl (by
      intro P t rest k hl hk
      have ht : t ∈ T := by rw [hl]; simp
      by_cases hkk : (kept t.2.1 && kept t.2.2) = true
      · refine ⟨k + 1, by simp only [countOne, Res.ok_bind, hskip t ht, hkk]; rfl, ?_⟩
        rw [List.filterMap_append, hk]
        simp [tr_pos hkk]
      · have hkf : (kept t.2.1 && kept t.2.2) = false := by simpa using hkk
        refine ⟨k, by simp only [countOne, Res.ok_bind, hskip t ht, hkf]; rfl, ?_⟩
        rw [List.filterMap_append, hk]
        simp [tr_neg hkk])
  -- second traversal
  obtain ⟨cs, e2, hcs⟩ := foldl_res_inv (fun st (t : K × Nat × Nat) => countCol bits sub (0 + t.2.1) (0 + t.2.2) st)
    (fun P cs => VecIs cs (cols + 1) (fun q => if q = 0 then 0 else (colOf (q - 1) (P.filterMap (tr kept rank))).length)) T
    (List.replicate (cols + 1) 0) ⟨by simp, by intro i hi; rw [rd_ok]; simp [hi, colOf]⟩ (by
      intro P t rest cs hl hcs
      have ht : t ∈ T := by rw [hl]; simp
      by_cases hkk : (kept t.2.1 && kept t.2.2) = true
      · have hkk' := hkk
        rw [Bool.and_eq_true] at hkk'
        have hlt := hsel.lt _ (hT.bound t ht).2 hkk'.2
        have hr := hcs.2 (rank t.2.2 + 1) (by omega)
        dsimp only at hr
        rw [if_neg (by cases A <;> simp_all [NonEmpty, topSize] <;> omega), Nat.add_sub_cancel] at hr
        obtain ⟨cs', e, hv⟩ := hcs.wr ((colOf (rank t.2.2) (P.filterMap (tr kept rank))).length + 1)
          (show rank t.2.2 + 1 < cols + 1 by omega)
        have hp := hsel.pickC _ (hT.bound t ht).2 hkk'.2
        refine ⟨cs', ?_, hv.congr ?_⟩
        · simp only [countCol, Res.ok_bind, hskip t ht, hkk]
          simp only [Nat.zero_add] at *
          simp [hp, hr, e]
        · intro q _
          rw [List.filterMap_append, colOf_append]
          by_cases hq : q = rank t.2.2 + 1
          · subst hq
            simp [tr_pos hkk, colOf]
          · rw [upd_ne _ _ hq]
            by_cases hq0 : q = 0
            · simp [hq0]
            · have : rank t.2.2 ≠ q - 1 := by omega
              simp [hq0, tr_pos hkk, colOf, this]
      · have hkf : (kept t.2.1 && kept t.2.2) = false := by simpa using hkk
        refine ⟨cs, by simp only [countCol, Res.ok_bind, hskip t ht, hkf]; rfl, hcs.congr ?_⟩
        intro q _
        rw [List.filterMap_append]
        simp [tr_neg hkk])
  obtain ⟨cs', e3, hcs'⟩ := acc_spec cols E cs hcs
  -- third traversal
  obtain ⟨s', e4, hr4, hv4, hput⟩ := fillAll_spec cols E hE cs' hcs'
    ⟨(List.range k1).map i0, (List.range k1).map v0, List.replicate cols 0⟩
    ⟨by simp, by intro i hi; rw [rd_ok]; simp [hi]⟩ E.length le_rfl (by simp [hk1, hEdef]) (by simp [hk1, hEdef])
  have e5 : T.foldl (fun st (t : K × Nat × Nat) => fillOne bits sub cs' t.1 (0 + t.2.1) (0 + t.2.2) st)
      (.ok ⟨(List.range k1).map i0, (List.range k1).map v0, List.replicate cols 0⟩) = .ok s' := by
    have key : ∀ (U : List (K × Nat × Nat)) (s : Fill K), (∀ t ∈ U, t ∈ T) →
        U.foldl (fun st (t : K × Nat × Nat) => fillOne bits sub cs' t.1 (0 + t.2.1) (0 + t.2.2) st) (.ok s) =
        (U.filterMap (tr kept rank)).foldlM (fun s e => fillAt cs' e.2.2 e.1 e.2.1 s) s ∨
        ∀ y, (U.filterMap (tr kept rank)).foldlM (fun s e => fillAt cs' e.2.2 e.1 e.2.1 s) s ≠ .ok y := by
      intro U
      induction U with
      | nil => intro s _; exact Or.inl rfl
      | cons t U ih =>
        intro s hU
        have ht := hU t (by simp)
        by_cases hkk : (kept t.2.1 && kept t.2.2) = true
        · have hkk' := hkk
          rw [Bool.and_eq_true] at hkk'
          have hp := hsel.pickC _ (hT.bound t ht).2 hkk'.2
          have hp' := hsel.pickR _ (hT.bound t ht).1 hkk'.1
          have h1 : fillOne bits sub cs' t.1 (0 + t.2.1) (0 + t.2.2) (.ok s) = fillAt cs' t.1 (rank t.2.1) (rank t.2.2) s := by
            simp only [fillOne, Res.ok_bind, hskip t ht, hkk]
            simp [hp, hp']
          rw [List.foldl_cons, h1, List.filterMap_cons, tr_pos hkk]
          simp only [List.foldlM_cons]
          cases hf : fillAt cs' t.1 (rank t.2.1) (rank t.2.2) s with
          | ok s1 => exact ih s1 (fun x hx => hU x (by simp [hx]))
          | throw e => right; intro y h; cases h
          | ub => right; intro y h; cases h
        · have hkf : (kept t.2.1 && kept t.2.2) = false := by simpa using hkk
          have h1 : fillOne bits sub cs' t.1 (0 + t.2.1) (0 + t.2.2) (.ok s) = .ok s := by
            simp only [fillOne, Res.ok_bind, hskip t ht, hkf]; rfl
          rw [List.foldl_cons, h1, List.filterMap_cons, tr_neg hkk]
          exact ih s (fun x hx => hU x (by simp [hx]))
    rcases key T _ (fun _ h => h) with h | h
    · rw [h, ← hEdef]; exact e4
    · exact absurd e4 (h s')
  refine ⟨⟨R - ignored, cols, k1, s'.values, s'.rowindex, cs'⟩, ?_, rfl, rfl, ?_⟩
  · unfold load
    rw [hT.run]
    simp only [Res.ok_bind, callsAt]
    rw [e1]
    simp only [Res.ok_bind, hsub]
    rw [hT.run]
    simp only [Res.ok_bind, callsAt]
    rw [← hcols, e2]
    simp only [Res.ok_bind]
    rw [e3]
    simp only [Res.ok_bind]
    rw [hT.run]
    simp only [Res.ok_bind, callsAt]
    rw [e5]
    rfl
  · exact represents_of_cols cols E hE hpw _ hcs' hk1 hr4 hv4 hput

/-- the flat bit vector -/
theorem flatBits_spec (v : NVec Bool) : flatBits v = .ok (v.leaves, v.leaves.count true) := by
  unfold flatBits
  rw [C40_vector]
  dsimp only
  rw [C40_vector]
  dsimp only
  set n := v.leaves.length with hn
  obtain ⟨s, e, h1, h2, h3⟩ := foldl_res_inv (fun st (p : Bool × Nat) => putBit p.1 p.2 st)
    (fun P (s : List Bool × Nat) => s.1.length = n ∧ s.2 = (v.leaves.take P.length).count true ∧
      ∀ i, i < P.length → s.1[i]? = v.leaves[i]?) (v.leaves.zipIdx 0) (List.replicate n false, 0) (by simp) (by
      rintro P ⟨b, k⟩ rest ⟨l, c⟩ hl ⟨h1, h2, h3⟩
      have hlen : P.length < v.leaves.length := by
        have := congrArg List.length hl
        simp at this
        omega
      have hget : (v.leaves.zipIdx 0)[P.length]? = some (b, k) := by rw [hl]; simp
      rw [List.getElem?_zipIdx, List.getElem?_eq_getElem hlen] at hget
      simp only [Option.map_some, Option.some.injEq, Prod.mk.injEq, Nat.zero_add] at hget
      obtain ⟨hb, rfl⟩ := hget
      dsimp only at h1 h2 h3
      refine ⟨(l.set P.length b, if b then c + 1 else c), ?_, ?_, ?_, ?_⟩
      · simp only [putBit, Res.ok_bind]
        rw [wr_lt _ (by omega)]
        rfl
      · simpa using h1
      · dsimp only
        rw [List.length_append, List.length_singleton, List.take_succ, List.getElem?_eq_getElem hlen, List.count_append, h2, hb]
        cases b <;> simp
      · intro i hi
        dsimp only
        rw [List.length_append, List.length_singleton] at hi
        by_cases hik : i = P.length
        · subst hik
          rw [List.getElem?_set_self (by omega), List.getElem?_eq_getElem hlen, hb]
        · rw [List.getElem?_set_ne (Ne.symm hik)]
          exact h3 i (by omega))
  rw [e]
  have hzl : (v.leaves.zipIdx 0).length = v.leaves.length := by simp
  rw [hzl] at h2 h3
  congr 1
  refine Prod.ext ?_ ?_
  · apply List.ext_getElem?
    intro i
    by_cases hi : i < v.leaves.length
    · exact h3 i hi
    · rw [List.getElem?_eq_none (by omega), List.getElem?_eq_none (by dsimp only; omega)]
  · rw [h2, List.take_length]

/-- the compressed indices -/
theorem subIndices_spec (bits : List Bool) :
    ∃ sub, subIndices bits bits.length = .ok sub ∧
      ∀ i, bits[i]? = some false → rd sub i = .ok (some ((bits.take i).count false)) := by
  obtain ⟨s, e, h1, h2, h3⟩ := forRangeM_inv bits.length (fun i p => subStep bits i p)
    (fun k (p : List (Option Nat) × Nat) => p.1.length = bits.length ∧ p.2 = (bits.take k).count false ∧
      ∀ i, i < k → bits[i]? = some false → rd p.1 i = .ok (some ((bits.take i).count false)))
    (List.replicate bits.length none, 0) (by simp) (by
      rintro i ⟨l, c⟩ hi ⟨h1, h2, h3⟩
      dsimp only at h1 h2 h3
      cases hb : bits[i] with
      | true =>
        refine ⟨(l, c), by simp [subStep, rd_lt hi, hb], h1, ?_, ?_⟩
        · rw [List.take_succ, List.getElem?_eq_getElem hi, hb]; simp [h2]
        · intro j hj hf
          by_cases hji : j = i
          · subst hji
            rw [List.getElem?_eq_getElem hi, hb] at hf; cases hf
          · exact h3 j (by omega) hf
      | false =>
        refine ⟨(l.set i (some c), c + 1), ?_, by simpa using h1, ?_, ?_⟩
        · simp [subStep, rd_lt hi, hb, wr_lt _ (show i < l.length by omega)]
        · rw [List.take_succ, List.getElem?_eq_getElem hi, hb]; simp [h2]
        · intro j hj hf
          dsimp only
          by_cases hji : j = i
          · subst hji
            rw [rd_ok, List.getElem?_set_self (by omega), h2]
          · rw [rd_ok, List.getElem?_set_ne (Ne.symm hji), ← rd_ok]
            exact h3 j (by omega) hf)
  refine ⟨s.1, by simp [subIndices, e], fun i hi => h3 i ?_ hi⟩
  exact (List.getElem?_eq_some_iff.mp hi).1

end Umf

open Umf ForEach Ccs
variable {K : Type}

/-- Without a bit vector: the arrays handed to UMFPack describe exactly the flat matrix, each column's rows ascending; for every
well aligned nested matrix with at least one row and column. -/
theorem C49_full (v0 : Nat → K) (i0 : Nat → Nat) (A : NMat K) (R C : Nat) (hA : Dim A R C) (hN : NonEmpty A) :
    ∃ X, setMatrix v0 i0 A none = .ok (some X) ∧ X.N = R ∧ X.M = C ∧ X.Represents C (fun r c v => At A r c v) := by
  obtain ⟨T, hT⟩ := trav hA
  obtain ⟨X, e, h1, h2, h3⟩ := load_spec v0 i0 A R C T hT none 0 [] (fun _ => true) id rfl
    ⟨fun _ _ _ _ => rfl, fun _ _ _ => rfl, fun _ _ _ => rfl, fun _ h _ => h, fun _ _ h _ => h⟩
  refine ⟨X, ?_, h1, h2, ?_⟩
  · unfold setMatrix
    rw [if_neg (by cases A <;> simp_all [NonEmpty, topSize] <;> omega), e]
    rfl
  · have hmem : ∀ r c v, (r, c, v) ∈ T.filterMap (tr (fun _ => true) id) ↔ At A r c v := by
      intro r c v
      rw [← hT.at_iff, List.mem_filterMap]
      constructor
      · rintro ⟨⟨s, r', c'⟩, ht, h⟩
        simp only [tr, Bool.and_self, if_true, id, Option.some.injEq, Prod.mk.injEq] at h
        obtain ⟨rfl, rfl, rfl⟩ := h
        exact ht
      · intro h; exact ⟨(v, r, c), h, rfl⟩
    simpa only [hmem, Nat.sub_zero] using h3

/-- With a bit vector on a square matrix: the arrays describe the sub-matrix of the rows and columns whose bit is not set; the
new index of a kept row or column is the number of kept ones before it. -/
theorem C49_ignored (v0 : Nat → K) (i0 : Nat → Nat) (A : NMat K) (n : Nat) (hA : Dim A n n) (hN : NonEmpty A) (bv : NVec Bool) (hbv : bv.leaves.length = n) :
    ∃ X, setMatrix v0 i0 A (some bv) = .ok (some X) ∧ X.N = bv.leaves.count false ∧ X.M = bv.leaves.count false ∧
      X.Represents (bv.leaves.count false) (fun r c v => ∃ r' c', At A r' c' v ∧ bv.leaves[r']? = some false ∧
        bv.leaves[c']? = some false ∧ r = (bv.leaves.take r').count false ∧ c = (bv.leaves.take c').count false) := by
  obtain ⟨T, hT⟩ := trav hA
  set bits := bv.leaves with hbits
  have hcnt : n - bits.count true = bits.count false := by
    have : ∀ l : List Bool, l.count true + l.count false = l.length := by
      intro l
      induction l with
      | nil => rfl
      | cons b l ih => cases b <;> simp [← ih] <;> omega
    have := this bits
    omega
  obtain ⟨sub, esub, hsub⟩ := subIndices_spec bits
  have htake : ∀ i j : Nat, i < j → bits[i]? = some false → (bits.take i).count false < (bits.take j).count false := by
    intro i j hij hi
    have hpre : (bits.take (i + 1)).Sublist (bits.take j) := by
      rw [show i + 1 = min (i + 1) j by omega, ← List.take_take]
      exact List.take_sublist _ _
    have := hpre.count_le false
    rw [List.take_succ, hi, List.count_append] at this
    simp at this
    omega
  have hsel : Sel (some bits) sub n n (n - bits.count true) (fun i => decide (bits[i]? = some false))
      (fun i => (bits.take i).count false) := by
    refine ⟨?_, ?_, ?_, ?_, ?_⟩
    · intro r c hr hc
      have hr' : r < bits.length := by omega
      have hc' : c < bits.length := by omega
      simp only [Umf.skip, rd_lt hr', rd_lt hc', List.getElem?_eq_getElem hr', List.getElem?_eq_getElem hc', Res.ok_bind]
      cases bits[r] <;> cases bits[c] <;> rfl
    · intro r _ hk
      simp only [pick, hsub r (by simpa using hk), Res.ok_bind]
    · intro r _ hk
      simp only [pick, hsub r (by simpa using hk), Res.ok_bind]
    · intro c hc hk
      rw [hcnt]
      have := htake c n hc (by simpa using hk)
      rwa [show bits.take n = bits by rw [← hbv, List.take_length]] at this
    · intro r r' hlt hk
      exact htake r r' hlt (by simpa using hk)
  obtain ⟨X, e, h1, h2, h3⟩ := load_spec v0 i0 A n n T hT (some bits) (bits.count true) sub _ _
    (by rw [← hbv]; exact esub) hsel
  refine ⟨X, ?_, by rw [h1, hcnt], by rw [h2, hcnt], ?_⟩
  · unfold setMatrix
    rw [if_neg (by cases A <;> simp_all [NonEmpty, topSize] <;> omega)]
    dsimp only
    rw [flatBits_spec]
    simp only [Res.ok_bind, ← hbits, e]
  · have hmem : ∀ r c v, (r, c, v) ∈ T.filterMap (tr (fun i => decide (bits[i]? = some false))
        (fun i => (bits.take i).count false)) ↔ ∃ r' c', At A r' c' v ∧ bits[r']? = some false ∧
        bits[c']? = some false ∧ r = (bits.take r').count false ∧ c = (bits.take c').count false := by
      intro r c v
      rw [List.mem_filterMap]
      constructor
      · rintro ⟨⟨s, r', c'⟩, ht, h⟩
        by_cases hk : (decide (bits[r']? = some false) && decide (bits[c']? = some false)) = true
        · rw [tr_pos hk] at h
          simp only [Option.some.injEq, Prod.mk.injEq] at h
          obtain ⟨rfl, rfl, rfl⟩ := h
          simp only [Bool.and_eq_true, decide_eq_true_eq] at hk
          exact ⟨r', c', (hT.at_iff _ _ _).mp ht, hk.1, hk.2, rfl, rfl⟩
        · rw [tr_neg hk] at h; cases h
      · rintro ⟨r', c', ht, hr, hc, rfl, rfl⟩
        exact ⟨(v, r', c'), (hT.at_iff _ _ _).mpr ht, tr_pos (by simp [hr, hc])⟩
    rw [hcnt] at h3
    simpa only [hmem] using h3

/-- A matrix without rows or columns is not loaded. -/
theorem C49_empty (v0 : Nat → K) (i0 : Nat → Nat) (A : NMat K) (bv : Option (NVec Bool))
    (h : ¬ NonEmpty A) : setMatrix v0 i0 A bv = .ok none := by
  unfold setMatrix
  rw [if_pos]
  cases A <;> simp_all [NonEmpty, topSize] <;> omega

/-- Non-vacuity: a 3x3 matrix with the middle degree of freedom ignored. -/
example : setMatrix (fun _ => 0) (fun _ => 0)
    (NMat.sparse 3 3 (fun i => if i = 0 then [0, 1] else if i = 1 then [0, 1, 2] else [0, 2])
      (fun i j => .scalar (10 * i + j)) (.scalar 0)) (some (.node 3 fun i => .scalar (decide (i = 1)))) =
    .ok (some ⟨2, 2, 3, [0, 20, 22], [0, 1, 1], [0, 2, 3]⟩) := by rfl

end Istl
