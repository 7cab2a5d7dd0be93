import Verif.Spec.CcsMem
import Verif.Lemmas.Heap

/-! # C39 — compressed column matrices have value semantics -/

namespace Istl
namespace CcsMem
variable {α : Type}

/-- an array pointer whose array starts with `l` -/
def PtrRep (H : Mem α) (p : Option Ptr) (l : List α) : Prop :=
  (p = none ∧ l = []) ∨ ∃ b full, p = some ⟨b, 0⟩ ∧ H[b]? = some (some full) ∧ l <+: full

/-- the block of a pointer -/
def blk : Option Ptr → List Nat
  | none => []
  | some p => [p.blk]

/-- the blocks an object will delete -/
def blocks (o : Obj) : List Nat :=
  if o.N + o.M + o.nnz = 0 then [] else blk o.values ++ (blk o.rowindex ++ blk o.colstart)

/-- the object stands for the value -/
structure Rep (H : Mem α) (o : Obj) (v : Val α) : Prop where
  hN : o.N = v.N
  hM : o.M = v.M
  hnnz : o.nnz = v.vals.length
  rlen : v.rows.length = v.vals.length
  clen : v.cols.length = if v.M = 0 then 0 else v.M + 1
  arr : o.N + o.M + o.nnz ≠ 0 → PtrRep H o.values v.vals ∧ PtrRep H o.rowindex v.rows ∧ PtrRep H o.colstart v.cols
  prist : v.pristine = true → o = ctor

/-- every object stands for its value and owns its blocks -/
structure Inv (w : World α) (s : State α) : Prop where
  len : w.objs.length = s.length
  rep : ∀ (i : Nat) (v : Val α), s[i]? = some (some v) → ∃ o, w.objs[i]? = some (some o) ∧ Rep w.mem o v ∧ (blocks o).Nodup
  dom : ∀ (i : Nat) (o : Obj), w.objs[i]? = some (some o) → ∃ v, s[i]? = some (some v)
  own : ∀ (i j : Nat) (oi oj : Obj) (b : Nat), w.objs[i]? = some (some oi) → w.objs[j]? = some (some oj) →
    b ∈ blocks oi → b ∈ blocks oj → i = j

theorem PtrRep.frame {H H' : Mem α} {p : Option Ptr} {l : List α} (h : PtrRep H p l)
    (hf : ∀ b ∈ blk p, H'[b]? = H[b]?) : PtrRep H' p l := by
  rcases h with h | ⟨b, full, rfl, h1, h2⟩
  · exact Or.inl h
  · exact Or.inr ⟨b, full, rfl, by rw [hf b (by simp [blk]), h1], h2⟩

theorem PtrRep.lt {H : Mem α} {p : Option Ptr} {l : List α} (h : PtrRep H p l) {b : Nat} (hb : b ∈ blk p) : b < H.length := by
  rcases h with ⟨rfl, _⟩ | ⟨c, full, rfl, h1, _⟩
  · simp [blk] at hb
  · simp only [blk, List.mem_singleton] at hb
    subst hb
    exact (List.getElem?_eq_some_iff.mp h1).1

theorem PtrRep.read {H : Mem α} {p : Option Ptr} {l : List α} (h : PtrRep H p l) {k : Nat} (hk : l.length = k) :
    H.read p k = .ok l := by
  subst hk
  rcases h with ⟨rfl, rfl⟩ | ⟨b, full, rfl, h1, h2⟩
  · simp [Mem.read]
  · by_cases h0 : l.length = 0
    · have := List.length_eq_zero_iff.mp h0
      subst this
      simp [Mem.read]
    · have hlen := h2.length_le
      simp only [Mem.read, h0, if_false, h1, Nat.zero_add, hlen, if_true, List.drop_zero]
      rw [List.prefix_iff_eq_take] at h2
      rw [← h2]

theorem Rep.frame {H H' : Mem α} {o : Obj} {v : Val α} (h : Rep H o v) (hf : ∀ b ∈ blocks o, H'[b]? = H[b]?) :
    Rep H' o v := by
  refine ⟨h.hN, h.hM, h.hnnz, h.rlen, h.clen, ?_, h.prist⟩
  intro hs
  obtain ⟨h1, h2, h3⟩ := h.arr hs
  unfold blocks at hf
  rw [if_neg hs] at hf
  exact ⟨h1.frame (fun b hb => hf b (by simp [hb])), h2.frame (fun b hb => hf b (by simp [hb])),
    h3.frame (fun b hb => hf b (by simp [hb]))⟩

theorem Rep.lt {H : Mem α} {o : Obj} {v : Val α} (h : Rep H o v) {b : Nat} (hb : b ∈ blocks o) : b < H.length := by
  unfold blocks at hb
  split at hb
  · simp at hb
  · rename_i hs
    obtain ⟨h1, h2, h3⟩ := h.arr hs
    simp only [List.mem_append] at hb
    rcases hb with hb | hb | hb
    · exact h1.lt hb
    · exact h2.lt hb
    · exact h3.lt hb

/-- an object is given new storage: it may keep its own blocks or use fresh ones -/
theorem Inv.replace {w : World α} {s : State α} (I : Inv w s) {i : Nat} {o : Obj} {v : Val α}
    (ho : w.objs[i]? = some (some o)) {H : Mem α} {o' : Obj} {v' : Val α} (hrep : Rep H o' v') (hnd : (blocks o').Nodup)
    (hb : ∀ b ∈ blocks o', b ∈ blocks o ∨ w.mem.length ≤ b)
    (hf : ∀ b, b ∉ blocks o → b < w.mem.length → H[b]? = w.mem[b]?) (_hv : s[i]? = some (some v)) :
    Inv ⟨H, w.objs.set i (some o')⟩ (s.set i (some v')) := by
  have hi : i < w.objs.length := (List.getElem?_eq_some_iff.mp ho).1
  have hi' : i < s.length := by rw [← I.len]; exact hi
  refine ⟨by simp [I.len], ?_, ?_, ?_⟩
  · intro k u hu
    dsimp only
    by_cases hk : i = k
    · subst hk
      simp only [List.getElem?_set_self hi', Option.some.injEq] at hu
      subst hu
      exact ⟨o', by simp [hi], hrep, hnd⟩
    · rw [List.getElem?_set_ne hk] at hu ⊢
      obtain ⟨ok, h1, h2, h3⟩ := I.rep k u hu
      refine ⟨ok, h1, h2.frame ?_, h3⟩
      intro b hb'
      exact hf b (fun h => hk (I.own i k o ok b ho h1 h hb')) (h2.lt hb')
  · intro k ok hk
    by_cases hki : i = k
    · subst hki; exact ⟨v', by simp [hi']⟩
    · dsimp only at hk
      rw [List.getElem?_set_ne hki] at hk ⊢
      exact I.dom k ok hk
  · have key : ∀ (k : Nat) (ok : Obj) (b : Nat), w.objs[k]? = some (some ok) → k ≠ i → b ∈ blocks o' → b ∈ blocks ok → False := by
      intro k ok b hk hki hbo hbk
      obtain ⟨u, hu⟩ := I.dom k ok hk
      obtain ⟨ok', h1, h2, _⟩ := I.rep k u hu
      rw [hk] at h1
      simp only [Option.some.injEq] at h1
      subst h1
      rcases hb b hbo with h | h
      · exact hki (I.own i k o ok b ho hk h hbk).symm
      · have := h2.lt hbk
        omega
    intro a c oa oc b ha hc hba hbc
    dsimp only at ha hc
    by_cases hai : i = a
    · by_cases hci : i = c
      · omega
      · subst hai
        rw [List.getElem?_set_self hi] at ha
        rw [List.getElem?_set_ne hci] at hc
        simp only [Option.some.injEq] at ha
        subst ha
        exact (key c oc b hc (Ne.symm hci) hba hbc).elim
    · rw [List.getElem?_set_ne hai] at ha
      by_cases hci : i = c
      · subst hci
        rw [List.getElem?_set_self hi] at hc
        simp only [Option.some.injEq] at hc
        subst hc
        exact (key a oa b ha (Ne.symm hai) hbc hba).elim
      · rw [List.getElem?_set_ne hci] at hc
        exact I.own a c oa oc b ha hc hba hbc

/-- deleting a valid array -/
theorem free_ptr {H : Mem α} {p : Option Ptr} {l : List α} (h : PtrRep H p l) :
    ∃ H', H.free p = .ok H' ∧ H'.length = H.length ∧ ∀ b, b ∉ blk p → H'[b]? = H[b]? := by
  rcases h with ⟨rfl, _⟩ | ⟨c, full, rfl, h1, _⟩
  · exact ⟨H, rfl, rfl, fun _ _ => rfl⟩
  · refine ⟨H.set c none, by simp [Mem.free, h1], by simp, ?_⟩
    intro b hb
    simp only [blk, List.mem_singleton] at hb
    rw [List.getElem?_set_ne (Ne.symm hb)]

/-- releasing the storage of an object -/
theorem freeIf_spec {H : Mem α} {o : Obj} {v : Val α} (h : Rep H o v) (hnd : (blocks o).Nodup) :
    ∃ H', freeIf H o = .ok (H', { o with N := 0, M := 0, nnz := 0 }) ∧ H'.length = H.length ∧
      ∀ b, b ∉ blocks o → H'[b]? = H[b]? := by
  unfold freeIf
  by_cases hs : o.N + o.M + o.nnz = 0
  · refine ⟨H, ?_, rfl, fun _ _ => rfl⟩
    rw [if_neg (not_not.mpr hs)]
    obtain ⟨N, M, nnz, a, b, c⟩ := o
    dsimp only at hs
    have : N = 0 ∧ M = 0 ∧ nnz = 0 := by omega
    obtain ⟨rfl, rfl, rfl⟩ := this
    rfl
  · rw [if_pos hs]
    obtain ⟨h1, h2, h3⟩ := h.arr hs
    unfold blocks at hnd
    rw [if_neg hs, List.nodup_append, List.nodup_append] at hnd
    obtain ⟨_, ⟨_, _, d23⟩, d1⟩ := hnd
    obtain ⟨H1, e1, l1, f1⟩ := free_ptr h1
    have h2' : PtrRep H1 o.rowindex v.rows := h2.frame (fun b hb => f1 b (fun hb' => d1 b hb' b (by simp [hb]) rfl))
    obtain ⟨H2, e2, l2, f2⟩ := free_ptr h2'
    have h3' : PtrRep H2 o.colstart v.cols := h3.frame (fun b hb => by
      rw [f2 b (fun hb' => d23 b hb' b hb rfl), f1 b (fun hb' => d1 b hb' b (by simp [hb]) rfl)])
    obtain ⟨H3, e3, l3, f3⟩ := free_ptr h3'
    refine ⟨H3, by simp [free, e1, e2, e3], by omega, ?_⟩
    intro b hb
    unfold blocks at hb
    rw [if_neg hs] at hb
    simp only [List.mem_append, not_or] at hb
    rw [f3 b hb.2.2, f2 b hb.2.1, f1 b hb.1]

theorem newCopy_spec (z : α) {H : Mem α} {p : Option Ptr} {l : List α} (h : PtrRep H p l) {k : Nat} (hk : l.length = k)
    (hpos : 0 < k) : newCopy z H p k = .ok (H ++ [some l], some ⟨H.length, 0⟩) := by
  have h' : PtrRep (H ++ [some (List.replicate k z)]) p l := h.frame (fun b hb => by
    rw [List.getElem?_append_left (h.lt hb)])
  have hne : l ≠ [] := by intro e; subst e; simp at hk; omega
  unfold newCopy
  simp only [Mem.alloc]
  rw [h'.read hk]
  simp only [Res.ok_bind, Mem.write, hne, if_false, List.getElem?_concat_length, Nat.zero_add, List.length_replicate, hk,
    le_refl, if_true, List.take_zero, List.nil_append]
  simp [List.set_append_right, hk]

theorem PtrRep.append {H : Mem α} {p : Option Ptr} {l : List α} (h : PtrRep H p l) (x : Option (List α)) :
    PtrRep (H ++ [x]) p l := h.frame (fun _ hb => by rw [List.getElem?_append_left (h.lt hb)])

theorem ptr_last (H : Mem α) (l : List α) : PtrRep (H ++ [some l]) (some ⟨H.length, 0⟩) l :=
  Or.inr ⟨H.length, l, rfl, by simp, List.prefix_rfl⟩

theorem Inv.obj {w : World α} {s : State α} (I : Inv w s) {i : Nat} {v : Val α} (h : s[i]? = some (some v)) :
    ∃ o, w.obj i = .ok o ∧ w.objs[i]? = some (some o) ∧ Rep w.mem o v ∧ (blocks o).Nodup := by
  obtain ⟨o, h1, h2, h3⟩ := I.rep i v h
  exact ⟨o, by simp [World.obj, h1], h1, h2, h3⟩

theorem set_self_obj {w : World α} {i : Nat} {o : Obj} (h : w.objs[i]? = some (some o)) : w.objs.set i (some o) = w.objs := by
  apply List.ext_getElem?
  intro k
  by_cases hk : i = k
  · subst hk; rw [List.getElem?_set_self (List.getElem?_eq_some_iff.mp h).1, h]
  · rw [List.getElem?_set_ne hk]

/-- One allowed statement. -/
theorem Inv.step (z : α) {w : World α} {s : State α} (I : Inv w s) (op : Op α) (hv : Valid s op) :
    ∃ w', step z w op = .ok w' ∧ Inv w' (apply s op) := by
  cases op with
  | new =>
    refine ⟨_, rfl, ?_, ?_, ?_, ?_⟩
    · simp [apply, I.len]
    · intro i v hs
      simp only [apply, List.getElem?_append] at hs
      simp only [List.getElem?_append, I.len]
      split at hs
      · rename_i h
        rw [if_pos h]
        exact I.rep i v hs
      · rename_i h
        rw [if_neg h]
        have : i - s.length = 0 := by
          by_contra hne
          rw [List.getElem?_eq_none (by simp; omega)] at hs
          cases hs
        rw [this] at hs ⊢
        simp only [List.getElem?_cons_zero, Option.some.injEq] at hs ⊢
        subst hs
        exact ⟨ctor, rfl, ⟨rfl, rfl, rfl, rfl, by simp [Val.empty], by simp [ctor], fun _ => rfl⟩, by simp [blocks, ctor]⟩
    · intro i o hs
      dsimp only at hs
      rw [List.getElem?_append] at hs
      simp only [apply, List.getElem?_append, ← I.len]
      split at hs
      · rename_i h
        rw [if_pos h]
        exact I.dom i o hs
      · rename_i h
        rw [if_neg h]
        have : i - w.objs.length = 0 := by
          by_contra hne
          rw [List.getElem?_eq_none (by simp; omega)] at hs
          cases hs
        rw [this]
        exact ⟨_, rfl⟩
    · intro i j oi oj b hi hj hbi hbj
      dsimp only at hi hj
      rw [List.getElem?_append] at hi hj
      have noblk : ∀ k (ok : Obj), ¬ k < w.objs.length → [some ctor][k - w.objs.length]? = some (some ok) → blocks ok = [] := by
        intro k ok hk h
        have : k - w.objs.length = 0 := by
          by_contra hne
          rw [List.getElem?_eq_none (by simp; omega)] at h
          cases h
        rw [this] at h
        simp only [List.getElem?_cons_zero, Option.some.injEq] at h
        subst h
        simp [blocks, ctor]
      split at hi
      · split at hj
        · exact I.own i j oi oj b hi hj hbi hbj
        · rename_i h
          rw [noblk j oj h hj] at hbj
          simp at hbj
      · rename_i h
        rw [noblk i oi h hi] at hbi
        simp at hbi
  | build i N M vals rows cols =>
    obtain ⟨⟨v, hs⟩, hr, hc⟩ := hv
    obtain ⟨o, e, ho, hrep, hnd⟩ := I.obj hs
    obtain ⟨H, ef, hl, hf⟩ := freeIf_spec hrep hnd
    refine ⟨_, by simp only [CcsMem.step, e, Res.ok_bind, build, ef, Mem.alloc]; rfl, ?_⟩
    refine I.replace ho ⟨rfl, rfl, rfl, hr, ?_, ?_, by simp⟩ ?_ ?_ ?_ hs
    · by_cases hM : M = 0 <;> simp [hM, hc]
    · intro _
      refine ⟨(ptr_last H vals).append _ |>.append _, ?_, ?_⟩
      · have := (ptr_last (H ++ [some vals]) rows).append (some cols)
        simpa using this
      · have h := ptr_last (H ++ [some vals] ++ [some rows]) cols
        dsimp only
        by_cases hM : M = 0
        · rcases h with ⟨h, _⟩ | ⟨b, full, h1, h2, _⟩
          · cases h
          · exact Or.inr ⟨b, full, by simpa using h1, by simpa using h2, by simp [hM]⟩
        · rw [if_neg hM]; simpa using h
    · simp only [blocks]
      split
      · simp
      · simp [blk]
    · intro b hb
      right
      simp only [blocks] at hb
      split at hb
      · simp at hb
      · simp [blk] at hb
        omega
    · intro b hb hlt
      rw [List.getElem?_append_left (by simp; omega), List.getElem?_append_left (by simp; omega),
        List.getElem?_append_left (by omega), hf b hb]
  | assign i j =>
    obtain ⟨hij, u, v, hi, hj, hcase⟩ := hv
    obtain ⟨o, e, ho, hrep, hnd⟩ := I.obj hi
    obtain ⟨src, es, hos, hreps, _⟩ := I.obj hj
    obtain ⟨H, ef, hl, hf⟩ := freeIf_spec hrep hnd
    have hreps' : Rep H src v := hreps.frame (fun b hb => hf b (fun h => hij (I.own i j o src b ho hos h hb)))
    have happ : apply s (.assign i j) = s.set i (some { v with pristine := false }) := by simp [apply, hj]
    rw [happ]
    by_cases hz : src.N + src.M + src.nnz = 0
    · -- empty source: nothing is allocated
      have hM : src.M = 0 := by omega
      have hn : src.nnz = 0 := by omega
      have hN : src.N = 0 := by omega
      refine ⟨_, by
        simp only [CcsMem.step, e, es, Res.ok_bind, if_neg hij, assign, ef, assignCols, assignEntries, hM, hn, lt_irrefl,
          if_false]; rfl, ?_⟩
      refine I.replace ho ⟨hreps.hN, by simpa [hM] using hreps.hM, by simpa [hn] using hreps.hnnz, hreps.rlen, hreps.clen, ?_,
        by simp⟩ ?_ ?_ ?_ hi
      · intro h; exact absurd (by simp [hN]) h
      · simp [blocks, hN]
      · intro b hb; simp [blocks, hN] at hb
      · intro b hb _; exact hf b hb
    · obtain ⟨pv, pr, pc⟩ := hreps'.arr hz
      -- pointers that are not replaced are null
      have hnull : (src.M = 0 ∨ src.nnz = 0) → o = ctor := by
        intro h
        rcases hcase with hF | hZ | hP
        · exfalso
          have h1 : 0 < src.M := by rw [hreps.hM]; exact hF.1
          have h2 : src.nnz ≠ 0 := by
            rw [hreps.hnnz]
            intro h0
            exact hF.2 (List.length_eq_zero_iff.mp h0)
          omega
        · exfalso
          apply hz
          rw [hreps.hN, hreps.hM, hreps.hnnz, hZ.1, hZ.2.1, hZ.2.2]
          rfl
        · exact hrep.prist hP
      by_cases hM : src.M = 0
      · have hoc := hnull (Or.inl hM)
        by_cases hn : src.nnz = 0
        · refine ⟨_, by
            simp only [CcsMem.step, e, es, Res.ok_bind, if_neg hij, assign, ef, assignCols, assignEntries, hM, hn, lt_irrefl,
              if_false]; rfl, ?_⟩
          have hvals : v.vals = [] := List.length_eq_zero_iff.mp (by rw [← hreps.hnnz]; exact hn)
          have hrows : v.rows = [] := List.length_eq_zero_iff.mp (by rw [hreps.rlen, hvals]; rfl)
          have hcols : v.cols = [] := List.length_eq_zero_iff.mp (by rw [hreps.clen, ← hreps.hM, hM]; rfl)
          refine I.replace ho ⟨hreps.hN, by simpa [hM] using hreps.hM, by simpa [hn] using hreps.hnnz, hreps.rlen, hreps.clen,
            ?_, by simp⟩ ?_ ?_ ?_ hi
          · intro _
            rw [hoc]
            exact ⟨Or.inl ⟨rfl, hvals⟩, Or.inl ⟨rfl, hrows⟩, Or.inl ⟨rfl, hcols⟩⟩
          · rw [hoc]; simp only [blocks]; split <;> simp [ctor, blk]
          · intro b hb; rw [hoc] at hb; simp only [blocks] at hb; split at hb <;> simp [ctor, blk] at hb
          · intro b hb _; exact hf b hb
        · have hnp : 0 < src.nnz := by omega
          have e1 := newCopy_spec z pv hreps.hnnz.symm hnp
          have e2 := newCopy_spec z (pr.append (some v.vals)) (by rw [hreps.rlen, ← hreps.hnnz]) hnp
          refine ⟨_, by
            simp only [CcsMem.step, e, es, Res.ok_bind, if_neg hij, assign, ef, assignCols, assignEntries, hM, lt_irrefl,
              if_false, hnp, if_true, e1, e2]; rfl, ?_⟩
          have hcols : v.cols = [] := List.length_eq_zero_iff.mp (by rw [hreps.clen, ← hreps.hM, hM]; rfl)
          refine I.replace ho ⟨hreps.hN, by simpa [hM] using hreps.hM, hreps.hnnz, hreps.rlen, hreps.clen,
            ?_, by simp⟩ ?_ ?_ ?_ hi
          · intro _
            rw [hoc]
            exact ⟨(ptr_last H v.vals).append _, ptr_last _ v.rows, Or.inl ⟨rfl, hcols⟩⟩
          · rw [hoc]; simp only [blocks]; split <;> simp [ctor, blk]
          · intro b hb
            right
            rw [hoc] at hb; simp only [blocks] at hb
            split at hb
            · simp at hb
            · simp [ctor, blk] at hb
              omega
          · intro b hb hlt
            rw [List.getElem?_append_left (by simp; omega), List.getElem?_append_left (by omega), hf b hb]
      · have hMp : 0 < src.M := by omega
        have e0 := newCopy_spec z pc (show v.cols.length = src.M + 1 by
          rw [hreps.clen, if_neg (by rw [← hreps.hM]; exact hM), hreps.hM]) (by omega)
        by_cases hn : src.nnz = 0
        · have hoc := hnull (Or.inr hn)
          refine ⟨_, by
            simp only [CcsMem.step, e, es, Res.ok_bind, if_neg hij, assign, ef, assignCols, assignEntries, hMp, if_true, hn,
              lt_irrefl, if_false, e0]; rfl, ?_⟩
          have hvals : v.vals = [] := List.length_eq_zero_iff.mp (by rw [← hreps.hnnz]; exact hn)
          have hrows : v.rows = [] := List.length_eq_zero_iff.mp (by rw [hreps.rlen, hvals]; rfl)
          refine I.replace ho ⟨hreps.hN, hreps.hM, by simpa [hn] using hreps.hnnz, hreps.rlen, hreps.clen,
            ?_, by simp⟩ ?_ ?_ ?_ hi
          · intro _
            rw [hoc]
            exact ⟨Or.inl ⟨rfl, hvals⟩, Or.inl ⟨rfl, hrows⟩, ptr_last H v.cols⟩
          · rw [hoc]; simp only [blocks]; split <;> simp [ctor, blk]
          · intro b hb
            right
            rw [hoc] at hb; simp only [blocks] at hb
            split at hb
            · simp at hb
            · simp [ctor, blk] at hb
              omega
          · intro b hb hlt
            rw [List.getElem?_append_left (by omega), hf b hb]
        · have hnp : 0 < src.nnz := by omega
          have e1 := newCopy_spec z (pv.append (some v.cols)) hreps.hnnz.symm hnp
          have e2 := newCopy_spec z ((pr.append (some v.cols)).append (some v.vals)) (by rw [hreps.rlen, ← hreps.hnnz]) hnp
          refine ⟨_, by
            simp only [CcsMem.step, e, es, Res.ok_bind, if_neg hij, assign, ef, assignCols, assignEntries, hMp, if_true,
              hnp, e0, e1, e2]; rfl, ?_⟩
          refine I.replace ho ⟨hreps.hN, hreps.hM, hreps.hnnz, hreps.rlen, hreps.clen, ?_, by simp⟩ ?_ ?_ ?_ hi
          · intro _
            exact ⟨(ptr_last _ v.vals).append _, ptr_last _ v.rows, ((ptr_last H v.cols).append _).append _⟩
          · simp only [blocks]; split <;> simp [blk]
          · intro b hb
            right
            simp only [blocks] at hb
            split at hb
            · simp at hb
            · simp [blk] at hb
              omega
          · intro b hb hlt
            rw [List.getElem?_append_left (by simp; omega), List.getElem?_append_left (by simp; omega),
              List.getElem?_append_left (by omega), hf b hb]
  | setValue i k x =>
    obtain ⟨v, hs, hk⟩ := hv
    obtain ⟨o, e, ho, hrep, hnd⟩ := I.obj hs
    have hnz : o.N + o.M + o.nnz ≠ 0 := by rw [hrep.hnnz]; omega
    obtain ⟨pv, pr, pc⟩ := hrep.arr hnz
    have happ : apply s (.setValue i k x) = s.set i (some { v with vals := v.vals.set k x }) := by simp [apply, hs]
    rw [happ]
    have hbl : blocks o = blk o.values ++ (blk o.rowindex ++ blk o.colstart) := by rw [blocks, if_neg hnz]
    rcases pv with ⟨_, h⟩ | ⟨b, full, hp, h1, h2⟩
    · rw [h] at hk; simp at hk
    · have hkf : k < full.length := lt_of_lt_of_le hk h2.length_le
      have ew : setValue w.mem o k x = .ok (w.mem.set b (some (full.set k x))) := by
        simp only [setValue, hp, Option.map_some, Nat.zero_add, Mem.write, h1]
        have h1k : k + 1 ≤ full.length := hkf
        have hset : full.take k ++ [x] ++ full.drop (k + 1) = full.set k x := by
          rw [List.set_eq_take_append_cons_drop, if_pos hkf]; simp
        simp [h1k, hset] <;> simp [← hset]
      refine ⟨_, by simp only [CcsMem.step, e, Res.ok_bind, ew]; rfl, ?_⟩
      have hb0 : b ∈ blk o.values := by simp [blk, hp]
      rw [hbl, List.nodup_append] at hnd
      have hnotin : b ∉ blk o.rowindex ++ blk o.colstart := fun h => hnd.2.2 b hb0 b h rfl
      simp only [List.mem_append, not_or] at hnotin
      have hnd' : (blocks o).Nodup := by rw [hbl, List.nodup_append]; exact hnd
      have hblt : b < w.mem.length := (List.getElem?_eq_some_iff.mp h1).1
      have hI := I.replace (H := w.mem.set b (some (full.set k x))) (o' := o)
        (v' := { v with vals := v.vals.set k x }) ho ⟨hrep.hN, hrep.hM, by simp [hrep.hnnz], by simp [hrep.rlen], hrep.clen, (by
          intro _
          refine ⟨Or.inr ⟨b, full.set k x, hp, by simp [hblt], ?_⟩, pr.frame ?_, pc.frame ?_⟩
          · obtain ⟨t, rfl⟩ := h2
            exact ⟨t, by rw [List.set_append_left _ _ hk]⟩
          · intro c hc
            rw [List.getElem?_set_ne]
            rintro rfl
            exact hnotin.1 hc
          · intro c hc
            rw [List.getElem?_set_ne]
            rintro rfl
            exact hnotin.2 hc), (by intro hp'; exact hrep.prist hp')⟩
        hnd' (fun c hc => Or.inl hc) (by
          intro c hc _
          rw [List.getElem?_set_ne]
          rintro rfl
          exact hc (by rw [hbl]; simp [hb0])) hs
      rw [set_self_obj ho] at hI
      exact hI
  | free i =>
    obtain ⟨v, hs⟩ := hv
    obtain ⟨o, e, ho, hrep, hnd⟩ := I.obj hs
    obtain ⟨H, ef, hl, hf⟩ := freeIf_spec hrep hnd
    refine ⟨_, by simp only [CcsMem.step, e, Res.ok_bind, ef]; rfl, ?_⟩
    exact I.replace (v' := Val.empty false) ho ⟨rfl, rfl, rfl, rfl, by simp [Val.empty], by simp, by simp [Val.empty]⟩
      (by simp [blocks]) (by simp [blocks]) (fun b hb _ => hf b hb) hs
  | destroy i =>
    obtain ⟨v, hs⟩ := hv
    obtain ⟨o, e, ho, hrep, hnd⟩ := I.obj hs
    obtain ⟨H, ef, hl, hf⟩ := freeIf_spec hrep hnd
    refine ⟨⟨H, w.objs.set i none⟩, by simp only [CcsMem.step, e, Res.ok_bind, destroy, ef], ?_, ?_, ?_, ?_⟩
    · simp [apply, I.len]
    · intro k u hu
      simp only [apply] at hu
      by_cases hk : i = k
      · subst hk
        rw [List.getElem?_set_self (List.getElem?_eq_some_iff.mp hs).1] at hu
        simp at hu
      · rw [List.getElem?_set_ne hk] at hu
        obtain ⟨ok, h1, h2, h3⟩ := I.rep k u hu
        refine ⟨ok, by dsimp only; rw [List.getElem?_set_ne hk, h1], h2.frame ?_, h3⟩
        intro b hb
        exact hf b (fun h => hk (I.own i k o ok b ho h1 h hb))
    · intro k ok hk
      simp only [apply]
      dsimp only at hk
      by_cases hki : i = k
      · subst hki
        rw [List.getElem?_set_self (List.getElem?_eq_some_iff.mp ho).1] at hk
        simp at hk
      · rw [List.getElem?_set_ne hki] at hk ⊢
        exact I.dom k ok hk
    · intro a c oa oc b ha hc hba hbc
      dsimp only at ha hc
      have hne : ∀ (k : Nat) (ok : Obj), (w.objs.set i none)[k]? = some (some ok) → w.objs[k]? = some (some ok) := by
        intro k ok h
        by_cases hki : i = k
        · subst hki
          rw [List.getElem?_set_self (List.getElem?_eq_some_iff.mp ho).1] at h
          simp at h
        · rw [List.getElem?_set_ne hki] at h
          exact h
      exact I.own a c oa oc b (hne a oa ha) (hne c oc hc) hba hbc

theorem Inv.run (z : α) {w : World α} {s : State α} (I : Inv w s) (ops : List (Op α)) (hv : AllValid s ops) :
    ∃ w', ops.foldlM (CcsMem.step z) w = .ok w' ∧ Inv w' (CcsMem.run s ops) := by
  induction ops generalizing w s with
  | nil => exact ⟨w, rfl, I⟩
  | cons op ops ih =>
    obtain ⟨w1, e1, I1⟩ := I.step z op hv.1
    obtain ⟨w2, e2, I2⟩ := ih I1 hv.2
    exact ⟨w2, by rw [List.foldlM_cons, e1]; exact e2, I2⟩

end CcsMem

open CcsMem
variable {α : Type}

/-- Every program of allowed statements over any number of `BCCSMatrix` objects runs without invalid memory access, and what
is seen through each object is exactly the value independent variables would have. -/
theorem C39_values (z : α) (ops : List (Op α)) (hv : AllValid [] ops) :
    ∃ w, ops.foldlM (CcsMem.step z) ⟨[], []⟩ = .ok w ∧
      ∀ (i : Nat) (v : Val α), (run [] ops)[i]? = some (some v) →
        view w i = .ok (v.N, v.M, v.vals.length, v.vals, v.rows, v.cols) := by
  have I0 : Inv (⟨[], []⟩ : World α) [] := ⟨rfl, by simp, by simp, by simp⟩
  obtain ⟨w, e, I⟩ := I0.run z ops hv
  refine ⟨w, e, ?_⟩
  intro i v hi
  obtain ⟨o, eo, _, hrep, _⟩ := I.obj hi
  have hclen := hrep.clen
  have hrd : w.mem.read o.values o.nnz = .ok v.vals ∧ w.mem.read o.rowindex o.nnz = .ok v.rows ∧
      w.mem.read o.colstart (if o.M = 0 then 0 else o.M + 1) = .ok v.cols := by
    by_cases hz : o.N + o.M + o.nnz = 0
    · have hn : o.nnz = 0 := by omega
      have hM : o.M = 0 := by omega
      have hvals : v.vals = [] := List.length_eq_zero_iff.mp (by rw [← hrep.hnnz]; exact hn)
      have hrows : v.rows = [] := List.length_eq_zero_iff.mp (by rw [hrep.rlen, hvals]; rfl)
      have hcols : v.cols = [] := List.length_eq_zero_iff.mp (by rw [hclen, ← hrep.hM, hM]; rfl)
      rw [hvals, hrows, hcols, hn, hM]
      simp [Mem.read]
    · obtain ⟨h1, h2, h3⟩ := hrep.arr hz
      exact ⟨h1.read hrep.hnnz.symm, h2.read (by rw [hrep.rlen, hrep.hnnz]), h3.read (by rw [hclen, hrep.hM])⟩
  simp only [view, eo, hrd.1, hrd.2.1, hrd.2.2, Res.ok_bind]
  rw [hrep.hN, hrep.hM, hrep.hnnz]

/-- After `a = b` (an allowed assignment) `a` and `b` show the same matrix. -/
theorem C39_assign_equal (z : α) (ops : List (Op α)) (i j : Nat) (hv : AllValid [] (ops ++ [Op.assign i j])) :
    ∃ w, (ops ++ [Op.assign i j]).foldlM (CcsMem.step z) ⟨[], []⟩ = .ok w ∧ ∃ x, view w i = .ok x ∧ view w j = .ok x := by
  obtain ⟨w, e, h⟩ := C39_values z _ hv
  have hval : ∀ s : State α, AllValid s (ops ++ [Op.assign i j]) → Valid (run s ops) (Op.assign i j) := by
    clear hv h e
    induction ops with
    | nil => intro s hs; exact hs.1
    | cons op ops ih => intro s hs; exact ih _ hs.2
  obtain ⟨hij, u, v, hi, hj, _⟩ := hval [] hv
  have hr : run ([] : State α) (ops ++ [Op.assign i j]) = (run [] ops).set i (some { v with pristine := false }) := by
    simp only [run, List.foldl_append, List.foldl_cons, List.foldl_nil] at hj ⊢
    simp [apply, hj]
  have h1 := h i { v with pristine := false } (by
    rw [hr, List.getElem?_set_self (List.getElem?_eq_some_iff.mp hi).1])
  have h2 := h j v (by rw [hr, List.getElem?_set_ne hij, hj])
  exact ⟨w, e, _, h1, h2⟩

/-- Self-assignment loses the matrix: `a = a` leaves an empty matrix. -/
theorem C39_self_assignment_counterexample :
    ∃ w, [Op.new, .build 0 2 2 [7, 8] [0, 1] [0, 1, 2], .assign 0 0].foldlM (step (0 : Nat)) ⟨[], []⟩ = .ok w ∧
      view w 0 = .ok (0, 0, 0, [], [], []) := ⟨_, rfl, rfl⟩

/-- Assigning a matrix without entries to one that holds storage leaves dangling pointers: destroying the target deletes
them again, which is undefined behaviour. -/
theorem C39_no_entries_counterexample :
    [Op.new, .build 0 2 2 [7, 8] [0, 1] [0, 1, 2], .new, .build 1 2 2 [] [] [0, 0, 0], .assign 0 1, .destroy 0].foldlM
      (step (0 : Nat)) ⟨[], []⟩ = .ub := rfl

/-- Non-vacuity: an allowed program with assignments in both directions, an update and destruction. -/
example : AllValid ([] : State Nat) [.new, .build 0 2 2 [7, 8] [0, 1] [0, 1, 2], .new, .assign 1 0, .setValue 1 0 9, .assign 0 1,
    .destroy 1, .free 0] := by
  refine ⟨trivial, ⟨⟨_, rfl⟩, rfl, rfl⟩, trivial, ⟨by decide, _, _, rfl, rfl, Or.inl ⟨by decide, by simp⟩⟩, ⟨_, rfl, by decide⟩,
    ⟨by decide, _, _, rfl, rfl, Or.inl ⟨by decide, by simp⟩⟩, ⟨_, rfl⟩, ⟨_, rfl⟩, trivial⟩

end Istl
