import Verif.Lemmas.BcrsImplicit
import Mathlib.Algebra.BigOperators.Intervals

/-! Helper lemmas: `compress()` of a matrix built by accesses. -/

namespace Istl
namespace Bcrs
variable {B : Type}

theorem mergeCols_perm (its o : List (Nat × B)) : (mergeCols its o).Perm (its ++ o) := by
  induction its generalizing o with
  | nil => exact List.Perm.refl _
  | cons it its ih =>
    simp only [mergeCols]
    have h1 := (ih (o.dropWhile fun e => e.1 < it.1)).cons it
    have h2 := h1.append_left (o.takeWhile fun e => e.1 < it.1)
    refine h2.trans ?_
    have h3 : (o.takeWhile (fun e => e.1 < it.1) ++ it :: (its ++ o.dropWhile fun e => e.1 < it.1)).Perm
        (it :: its ++ (o.takeWhile (fun e => e.1 < it.1) ++ o.dropWhile fun e => e.1 < it.1)) := by
      rw [← List.cons_append, ← List.append_assoc, ← List.append_assoc]
      exact (List.perm_append_comm).append_right _
    rw [List.takeWhile_append_dropWhile] at h3
    exact h3

theorem mergeCols_sorted (its : List (Nat × B)) : ∀ (o : List (Nat × B)), its.Pairwise (fun a b => a.1 < b.1) →
    o.Pairwise (fun a b => a.1 < b.1) → (∀ a ∈ its, ∀ b ∈ o, a.1 ≠ b.1) →
    (mergeCols its o).Pairwise fun a b => a.1 < b.1 := by
  induction its with
  | nil => intro o _ ho _; exact ho
  | cons it its ih =>
    intro o hi ho hd
    rw [List.pairwise_cons] at hi
    simp only [mergeCols]
    set T := o.takeWhile fun e => e.1 < it.1 with hT
    set D := o.dropWhile fun e => e.1 < it.1 with hD
    have hsub : T.Sublist o := List.takeWhile_sublist _
    have hsubD : D.Sublist o := List.dropWhile_sublist _
    have hTD : T ++ D = o := List.takeWhile_append_dropWhile
    have hTlt : ∀ a ∈ T, a.1 < it.1 := by
      intro a ha
      have := List.mem_takeWhile_imp ha
      simpa using this
    have hDgt : ∀ b ∈ D, it.1 < b.1 := by
      intro b hb
      have hbo := hsubD.subset hb
      have hne := hd it (by simp) b hbo
      have hge : ¬ b.1 < it.1 := by
        have hds : D.Pairwise (fun a b => a.1 < b.1) := ho.sublist hsubD
        cases hDc : D with
        | nil => rw [hDc] at hb; simp at hb
        | cons d D' =>
          have hhead : ¬ d.1 < it.1 := by
            have hne' : o.dropWhile (fun e => decide (e.1 < it.1)) ≠ [] := by rw [← hD, hDc]; simp
            have := List.head_dropWhile_not (fun e : Nat × B => decide (e.1 < it.1)) hne'
            have hh : (o.dropWhile fun e => decide (e.1 < it.1)).head hne' = d := by
              simp only [← hD, hDc, List.head_cons]
            rw [hh] at this
            simpa using this
          rw [hDc] at hb hds
          rw [List.pairwise_cons] at hds
          rcases List.mem_cons.mp hb with rfl | hb
          · exact hhead
          · have := hds.1 b hb; omega
      omega
    rw [List.pairwise_append]
    refine ⟨ho.sublist hsub, ?_, ?_⟩
    · rw [List.pairwise_cons]
      refine ⟨?_, ih D hi.2 (ho.sublist hsubD) (fun a ha b hb => hd a (by simp [ha]) b (hsubD.subset hb))⟩
      intro b hb
      rcases List.mem_append.mp ((mergeCols_perm its D).mem_iff.mp hb) with h | h
      · exact hi.1 b h
      · exact hDgt b h
    · intro a ha b hb
      have h1 := hTlt a ha
      rcases List.mem_cons.mp hb with rfl | hb
      · exact h1
      · rcases List.mem_append.mp ((mergeCols_perm its D).mem_iff.mp hb) with h | h
        · have := hi.1 b h; omega
        · have := hDgt b h; omega

theorem fits_iff (os avg : Nat) (len : Nat → Nat) (k : Nat) : ∀ (i acc : Nat), fits os avg len acc (List.range' i k) ↔
    ∀ r, i ≤ r → r < i + k → acc + ∑ q ∈ Finset.Ico i (r + 1), len q ≤ os + r * avg + 1 := by
  induction k with
  | zero => intro i acc; simp [fits]; intro r h1 h2; omega
  | succ k ih =>
    intro i acc
    rw [List.range'_succ]
    simp only [fits]
    rw [ih]
    constructor
    · rintro ⟨h1, h2⟩ r hr hr2
      rw [Finset.sum_eq_sum_Ico_succ_bot (by omega)]
      by_cases hri : r = i
      · subst hri; simp; exact h1
      · have := h2 r (by omega) (by omega)
        omega
    · intro h
      refine ⟨?_, ?_⟩
      · have := h i (le_refl _) (by omega)
        rw [Finset.sum_eq_sum_Ico_succ_bot (by omega)] at this
        simpa using this
      · intro r h1 h2
        have := h r (by omega) (by omega)
        rw [Finset.sum_eq_sum_Ico_succ_bot (by omega)] at this
        omega

theorem osize_pos (n avg : Nat) (cbs : ℚ) (h : 0 < avg) (hc : 0 ≤ cbs) : 0 < osize n avg cbs := by
  unfold osize
  rw [Nat.floor_pos]
  have h1 : (1 : ℚ) ≤ avg := by exact_mod_cast h
  have h2 : 0 ≤ (n * avg : ℚ) * cbs := by positivity
  linarith

/-- The state the implicit constructor leaves. -/
def implicitState (h : Heap B) (n m avg : Nat) (cbs : ℚ) : St B where
  h := { h with
    js := h.js ++ [some (List.replicate (n * avg + osize n avg cbs) h.junk)]
    as := h.as ++ [some (List.replicate (n * avg + osize n avg cbs) h.dflt)] }
  o := { (empty .implicit avg cbs : Obj B) with
    n := n, m := m, nnz := n * avg + osize n avg cbs, alloc := n * avg + osize n avg cbs, ready := .building
    a := some h.as.length, jarr := some h.js.length
    rows := if n = 0 then none else some ((List.range n).map fun i =>
      ⟨0, some ⟨h.as.length, osize n avg cbs + i * avg⟩, some ⟨h.js.length, osize n avg cbs + i * avg⟩⟩) }

theorem ctorImplicit_ok (h : Heap B) (o : Obj B) (n m avg : Nat) (cbs : ℚ) (hav : 0 < avg) (hc : 0 ≤ cbs) :
    ∃ s jb ab J A ws, ctorImplicit n m avg cbs .implicit ⟨h, o⟩ = .ok () s ∧ s.h.dflt = h.dflt ∧ s.h.vini = h.vini ∧
      Imp s n m avg (osize n avg cbs) jb ab J A (fun _ => []) (fun _ => []) ws ∧
      Tracks [] h.dflt h.vini avg (fun _ => []) (fun _ => []) := by
  have hos := osize_pos n avg cbs hav hc
  have hal : 0 < n * avg + osize n avg cbs := by omega
  refine ⟨implicitState h n m avg cbs, h.js.length, h.as.length, List.replicate (n * avg + osize n avg cbs) h.junk,
    List.replicate (n * avg + osize n avg cbs) h.dflt,
    (List.range n).map fun i => ⟨0, some ⟨h.as.length, osize n avg cbs + i * avg⟩, some ⟨h.js.length, osize n avg cbs + i * avg⟩⟩,
    ?_, ?_, ?_, ?_, ?_⟩
  · by_cases hn : n = 0
    · subst hn
      simp at hal
      simp [implicitState, ctorImplicit, implicitAllocate, setO, Cmd.bind_def, empty, not_lt.mpr hc, allocate, allocateRows, allocateData,
        allocateIdx, Mem.alloc, hal]
    · have hn' : 0 < n := Nat.pos_of_ne_zero hn
      simp [implicitState, ctorImplicit, implicitAllocate, setO, Cmd.bind_def, empty, not_lt.mpr hc, allocate, allocateRows, allocateData,
        allocateIdx, Mem.alloc, hn, hn', hav, hos]
  · rfl
  · rfl
  · constructor
    · rfl
    · rfl
    · rfl
    · rfl
    · rfl
    · rfl
    · rfl
    · simp [implicitState]
    · simp [implicitState]
    · simp; omega
    · simp; omega
    · exact ⟨by simp [implicitState, empty], rfl⟩
    · intro i hi; simp
    · intro i; simp
    · intro i hi q hq; simp at hq
    · intro i hi q hq; simp at hq
    · intro i hi q h1 h2
      have := slot_lt hi h2
      rw [List.getElem?_replicate, if_pos (by omega)]; rfl
    · simp [implicitState, empty, ovOf]
  · constructor
    · simp
    · simp
    · simp
    · simp [accCols]
    · simp
    · simp
    · simp

theorem runEntries_ok (acc' : List (Access B)) : ∀ {s : St B} {n m avg os jb ab : Nat} {J : List Nat} {A : List B}
    {bufs ovr : Nat → List (Nat × B)} {ws : List Win}, Imp s n m avg os jb ab J A bufs ovr ws → ∀ {acc : List (Access B)},
    Tracks acc s.h.dflt s.h.vini avg bufs ovr → (∀ a ∈ acc', a.row < n) →
    ∃ s' J' A' bufs' ovr' ws', runEntries acc' s = .ok () s' ∧ s'.h.dflt = s.h.dflt ∧ s'.h.vini = s.h.vini ∧
      Imp s' n m avg os jb ab J' A' bufs' ovr' ws' ∧ Tracks (acc ++ acc') s.h.dflt s.h.vini avg bufs' ovr' := by
  induction acc' with
  | nil =>
    intro s n m avg os jb ab J A bufs ovr ws H acc T _
    exact ⟨s, J, A, bufs, ovr, ws, rfl, rfl, rfl, H, by simpa using T⟩
  | cons a acc' ih =>
    intro s n m avg os jb ab J A bufs ovr ws H acc T hr
    obtain ⟨s1, J1, A1, b1, o1, w1, e1, d1, v1, H1, T1⟩ := entry_ok H T a (hr a (by simp))
    rw [← d1, ← v1] at T1
    obtain ⟨s2, J2, A2, b2, o2, w2, e2, d2, v2, H2, T2⟩ := ih H1 T1 (fun b hb => hr b (by simp [hb]))
    refine ⟨s2, J2, A2, b2, o2, w2, ?_, by rw [d2, d1], by rw [v2, v1], H2, ?_⟩
    · unfold runEntries; rw [Cmd.bind_ok e1, e2]
    · rw [← d1, ← v1]; simpa using T2

theorem rowOut_spec {acc : List (Access B)} {dflt vini d : B} {n avg os : Nat} {J : List Nat} {A : List B}
    {bufs ovr : Nat → List (Nat × B)} (T : Tracks acc dflt vini avg bufs ovr)
    (bJ : ∀ i, i < n → ∀ q (h : q < (bufs i).length), J[os + i * avg + q]? = some ((bufs i)[q]).1)
    (bA : ∀ i, i < n → ∀ q (h : q < (bufs i).length), A[os + i * avg + q]? = some ((bufs i)[q]).2) (i : Nat) (hi : i < n) :
    (rowOut os avg J A d bufs ovr i).map Prod.fst = (accCols acc i).sort ∧
    (rowOut os avg J A d bufs ovr i).length = (accCols acc i).card ∧
    ∀ e ∈ rowOut os avg J A d bufs ovr i, ∃ z, (z = dflt ∨ z = vini) ∧ e.2 = accVal acc i e.1 z := by
  have hp := itemsOf_perm (os + i * avg) J A d (bufs i) (bJ i hi) (bA i hi)
  have hs := itemsOf_sorted (os + i * avg) J A d (bufs i) (bJ i hi)
  set items := itemsOf (os + i * avg) J A d ((bufs i).map Prod.fst) with hitems
  have hnd : (items.map Prod.fst).Nodup := (hp.map Prod.fst).nodup_iff.mpr (T.nodup i)
  have hlt : items.Pairwise fun a b => a.1 < b.1 := by
    have h2 : items.Pairwise fun a b => a.1 ≠ b.1 := by
      rw [List.Nodup, List.pairwise_map] at hnd; exact hnd
    exact (hs.and h2).imp (fun ⟨a, b⟩ => by omega)
  have hsorted : (rowOut os avg J A d bufs ovr i).Pairwise fun a b => a.1 < b.1 := by
    apply mergeCols_sorted _ _ hlt (T.osorted i)
    intro a ha b hb hab
    exact T.disj i a.1 (List.mem_map.mpr ⟨a, hp.mem_iff.mp ha, rfl⟩) (List.mem_map.mpr ⟨b, hb, hab.symm⟩)
  have hperm : (rowOut os avg J A d bufs ovr i).Perm (items ++ ovr i) := mergeCols_perm _ _
  have hcols : (rowOut os avg J A d bufs ovr i).map Prod.fst = (accCols acc i).sort := by
    apply asc_eq_sort
    · rw [List.pairwise_map]; exact hsorted
    · intro x
      rw [T.mem i x]
      rw [(hperm.map Prod.fst).mem_iff, List.map_append, List.mem_append, (hp.map Prod.fst).mem_iff]
  refine ⟨hcols, ?_, ?_⟩
  · have := congrArg List.length hcols
    simpa using this
  · intro e he
    rcases List.mem_append.mp (hperm.mem_iff.mp he) with h | h
    · exact ⟨dflt, Or.inl rfl, T.bval i e (hp.mem_iff.mp h)⟩
    · exact ⟨vini, Or.inr rfl, T.oval i e h⟩

theorem set_self_of_get {α : Type} (M : List α) (b : Nat) (x : α) (h : M[b]? = some x) : M.set b x = M := by
  apply List.ext_getElem?
  intro k
  rw [List.getElem?_set]
  split
  · rename_i hk; subst hk
    split
    · exact h.symm
    · rename_i hc; rw [List.getElem?_eq_none (by omega)]
  · rfl

theorem compress_spec {s : St B} {n m avg os jb ab : Nat} {J : List Nat} {A : List B}
    {bufs ovr : Nat → List (Nat × B)} {ws : List Win} (H : Imp s n m avg os jb ab J A bufs ovr ws) {acc : List (Access B)}
    (T : Tracks acc s.h.dflt s.h.vini avg bufs ovr) (hav : 0 < avg) :
    ((∀ i, i < n → ∑ r ∈ Finset.range (i + 1), (accCols acc r).card ≤ os + i * avg + 1) →
      ∃ s' rows, compress s = .ok () s' ∧ s'.o.ready = .built ∧ view s' = .ok (n, m, rows) ∧ rows.length = n ∧
        (0 < n → s'.o.nnz = ∑ r ∈ Finset.range n, (accCols acc r).card) ∧
        (∃ rj cs vs rv ws', Single s'.h s'.o cs rj cs vs rv ws') ∧
        ∀ i (h : i < rows.length), rows[i].map Prod.fst = (accCols acc i).sort ∧
          ∀ e ∈ rows[i], ∃ z, (z = s.h.dflt ∨ z = s.h.vini) ∧ e.2 = accVal acc i e.1 z) ∧
    (¬ (∀ i, i < n → ∑ r ∈ Finset.range (i + 1), (accCols acc r).card ≤ os + i * avg + 1) →
      ∃ s', compress s = .throw .compressionBufferExhausted s') := by
  have hstart : compress s = (do
      let _ ← cmpRows (List.range n) { jit := 0, ait := 0, ov := (List.range n).flatMap (ovOf ovr) }
      setO fun o => { o with ov := [] }
      cmpNnz n
      setO fun o => { o with ready := .built } : BC B Unit) s := by
    unfold compress
    rw [Cmd.bind_ok (Cmd.get_apply s)]
    simp only [H.mode, H.ready, ne_eq, not_true, if_false, reduceCtorEq]
    rw [H.hn, H.hov]
  rw [hstart]
  by_cases hn0 : n = 0
  · subst hn0
    refine ⟨fun _ => ?_, fun h => absurd (by intro i hi; omega) h⟩
    have hws : ws = [] := List.length_eq_zero_iff.mp (by rw [H.rows.1, H.hn])
    have hr : s.o.rows = none := by have := H.rows.2; rw [H.hn] at this; simpa using this
    refine ⟨{ s with o := { s.o with ov := [], ready := .built } }, [], ?_, rfl, ?_, rfl, by omega, ⟨J, [], [], A, [], ?_⟩, by simp⟩
    · simp [cmpRows, cmpNnz, Cmd.bind_def, setO]
    · simp [view, hr, rowsView, H.hn, H.hm]
    · constructor
      · rfl
      · exact ⟨by simp [H.hn], by simp [hr, H.hn]⟩
      · rfl
      · rfl
      · rfl
      · simp
      · simp
      · simp only [H.hjarr, Mem.Holds]; simpa using H.hJ
      · simp only [H.ha, Mem.Holds]; simpa using H.hA
  · have hwl : ws.length = n := by rw [H.rows.1, H.hn]
    have hbase : Base s jb ab J A := ⟨H.hjarr, H.ha, H.hJ, H.hA, by rw [H.lA, H.lJ], by rw [H.hn]; exact hn0⟩
    have hmk : mk s jb ab J A [] ws = s := by
      have e1 := set_self_of_get _ _ _ H.hJ
      have e2 := set_self_of_get _ _ _ H.hA
      have e3 : s.o.rows = some ws := by have := H.rows.2; rw [H.hn, if_neg hn0] at this; exact this
      simp only [mk, List.map_nil, List.length_nil, List.drop_zero, List.nil_append, e1, e2, ← e3]
    have hlJ := H.lJ
    obtain ⟨a, b⟩ := rows_spec hbase s.h.dflt os avg n bufs ovr hav H.lJ H.bJ H.bA n 0 [] ws (by omega) hwl (by simp)
      (fun r h _ => H.win r h)
    rw [hmk] at a b
    have hR := fun i hi => rowOut_spec (d := s.h.dflt) T H.bJ H.bA i hi
    have hfit : fits os avg (fun r => (rowOut os avg J A s.h.dflt bufs ovr r).length) 0 (List.range' 0 n) ↔
        ∀ i, i < n → ∑ r ∈ Finset.range (i + 1), (accCols acc r).card ≤ os + i * avg + 1 := by
      rw [fits_iff]
      have hs : ∀ i, i < n → ∑ q ∈ Finset.Ico 0 (i + 1), (rowOut os avg J A s.h.dflt bufs ovr q).length =
          ∑ r ∈ Finset.range (i + 1), (accCols acc r).card := by
        intro i hi
        rw [← Finset.range_eq_Ico]
        apply Finset.sum_congr rfl
        intro q hq
        exact (hR q (by have := Finset.mem_range.mp hq; omega)).2.1
      constructor
      · intro h i hi
        have := h i (by omega) (by omega)
        rw [hs i hi] at this; omega
      · intro h i _ hi
        have := h i (by omega)
        rw [hs i (by omega)]; omega
    rw [List.length_nil] at a b
    rw [← hfit, List.range_eq_range']
    refine ⟨fun hf => ?_, fun hf => ?_⟩
    · obtain ⟨ws', g1, g2, -, g4⟩ := a hf
      set R := rowOut os avg J A s.h.dflt bufs ovr with hRdef
      set Rs := (List.range' 0 n).map R with hRs
      have hRl : Rs.length = n := by simp [Rs]
      have hRg : ∀ i (h : i < Rs.length), Rs[i] = R i := by intro i h; simp [Rs]
      simp only [List.nil_append] at g1
      rw [Cmd.bind_ok g1]
      simp only [Nat.zero_add, Nat.sub_zero] at g4
      have hlast : n - 1 < ws'.length := by omega
      set sm := mk s jb ab J A Rs.flatten ws' with hsm
      have hj : sm.h.js.Holds (some jb) (Rs.map fun r => r.map Prod.fst) (J.drop Rs.flatten.length) := by
        simp only [Mem.Holds]
        rw [mk_js hbase]
        simp [List.map_flatten]
      have ha : sm.h.as.Holds (some ab) (Rs.map fun r => r.map Prod.snd) (A.drop Rs.flatten.length) := by
        simp only [Mem.Holds]
        rw [mk_as hbase]
        simp [List.map_flatten]
      have hoff : ∀ {β : Type} (g : Nat × B → β) i, Mem.segOff (Rs.map fun r => r.map g) i = Mem.segOff Rs i := by
        intro β g i
        unfold Mem.segOff
        rw [← List.map_take, ← List.map_flatten, List.length_map]
      have hSingle : Single sm.h ({ sm.o with ov := [], ready := .built, nnz := Rs.flatten.length } : Obj B)
          (Rs.map fun r => r.map Prod.fst) (J.drop Rs.flatten.length) (Rs.map fun r => r.map Prod.fst)
          (Rs.map fun r => r.map Prod.snd) (A.drop Rs.flatten.length) ws' := by
        constructor
        · rfl
        · exact ⟨by rw [g2]; exact H.hn.symm, by simp [sm, mk, H.hn, hn0]⟩
        · simp [hRl, g2]
        · simp [hRl, g2]
        · simp [hRl, g2]
        · intro i h1 h2; exact ⟨[], by simp⟩
        · intro i h h2 h3
          have hi : i < Rs.length := by simpa using h2
          rw [g4 i h (by omega)]
          simp only [List.getElem_map, List.length_map, hRg i hi, true_and]
          rw [hoff, hoff]
          have ej : sm.o.jarr = some jb := H.hjarr
          have ea : sm.o.a = some ab := H.ha
          rw [ej, ea]
          exact ⟨fun _ => rfl, fun _ => rfl⟩
        · have ej : sm.o.jarr = some jb := H.hjarr
          simp only [ej]; exact hj
        · have ea : sm.o.a = some ab := H.ha
          simp only [ea]; exact ha
      have hzip : List.zipWith List.zip (Rs.map fun r => r.map Prod.fst) (Rs.map fun r => r.map Prod.snd) = Rs := by
        apply List.ext_getElem (by simp)
        intro i h1 h2
        simp only [List.getElem_zipWith, List.getElem_map]
        exact (List.zip_of_prod rfl rfl).symm
      have htot : Mem.segOff Rs (n - 1) + (R (n - 1)).length = Rs.flatten.length := by
        have := Mem.flatten_split Rs (n - 1) (by omega)
        rw [this, hRg (n - 1) (by omega)]
        have : Rs.drop (n - 1 + 1) = [] := List.drop_eq_nil_of_le (by omega)
        rw [this]
        simp [Mem.segOff]
      refine ⟨{ sm with o := { sm.o with ov := [], ready := .built, nnz := Rs.flatten.length } }, Rs, ?_, rfl, ?_, hRl, ?_,
        ⟨_, _, _, _, _, hSingle⟩, ?_⟩
      · simp only [cmpNnz, if_neg hn0, Cmd.bind_def, setO, Cmd.modify_apply]
        have hrow : row (n - 1) ({ sm with o := { sm.o with ov := [] } } : St B) =
            .ok ws'[n - 1] { sm with o := { sm.o with ov := [] } } := by
          simp [row, sm, mk, List.getElem?_eq_getElem hlast]
        simp only [hrow, g4 (n - 1) hlast (by omega), Option.map_some, Option.getD_some, htot]
      · have := hSingle.view
        rw [hzip] at this
        have e1 : sm.o.n = n := H.hn
        have e2 : sm.o.m = m := H.hm
        rw [← e1, ← e2]
        exact this
      · intro _
        simp only
        rw [List.length_flatten, hRs, List.map_map, ← List.range_eq_range']
        have : ((List.range n).map (List.length ∘ R)).sum = ∑ r ∈ Finset.range n, (R r).length := rfl
        rw [this]
        apply Finset.sum_congr rfl
        intro q hq
        exact (hR q (Finset.mem_range.mp hq)).2.1
      · intro i h
        rw [hRg i h]
        have := hR i (by omega)
        exact ⟨this.1, this.2.2⟩
    · obtain ⟨s', hs'⟩ := b hf
      exact ⟨s', Cmd.bind_throw hs'⟩

end Bcrs
end Istl
