import Verif.Spec.VbVector
import Verif.Lemmas.Heap
import Verif.Lemmas.Gsetc

/-! Helper lemmas about vectors with variable blocks. -/

namespace Istl
namespace VbV
variable {B : Type}

/-- The `std::vector` holds `l`. -/
def Store (M : Mem B) (v : Vec) (l : List B) : Prop :=
  v.size = l.length ∧ ((v.buf = none ∧ l = []) ∨ ∃ b, v.buf = some b ∧ M[b]? = some (some l))

/-- `M'` differs from `M` only in buffer `buf` and in new buffers; `buf'` is `buf` or new. -/
structure Delta (M M' : Mem B) (buf buf' : Option Nat) : Prop where
  len : M.length ≤ M'.length
  old : ∀ c, c < M.length → buf ≠ some c → M'[c]? = M[c]?
  new : ∀ b, buf' = some b → buf = some b ∨ M.length ≤ b

theorem Store.lt {M : Mem B} {v : Vec} {l : List B} (H : Store M v l) {b : Nat} (hb : v.buf = some b) : b < M.length := by
  rcases H.2 with ⟨h, -⟩ | ⟨c, h1, h2⟩
  · rw [h] at hb; cases hb
  · rw [h1] at hb
    cases hb
    by_contra hc
    rw [List.getElem?_eq_none (by omega)] at h2
    cases h2

theorem Store.frame {M M' : Mem B} {v : Vec} {l : List B} (H : Store M v l) (h : ∀ b, v.buf = some b → M'[b]? = M[b]?) : Store M' v l := by
  refine ⟨H.1, ?_⟩
  rcases H.2 with h1 | ⟨b, h1, h2⟩
  · exact .inl h1
  · exact .inr ⟨b, h1, by rw [h b h1, h2]⟩

theorem Store.read {M : Mem B} {v : Vec} {l : List B} (H : Store M v l) : vecRead M v = .ok l := by
  unfold vecRead Mem.read Vec.data
  rcases H.2 with ⟨h1, h2⟩ | ⟨b, h1, h2⟩
  · simp [H.1, h2]
  · by_cases h0 : l = []
    · simp [H.1, h0]
    · simp [H.1, h1, h2, h0]

theorem Store.free {M : Mem B} {v : Vec} {l : List B} (H : Store M v l) :
    ∃ M', M.free v.data = .ok M' ∧ M'.length = M.length ∧ ∀ c, v.buf ≠ some c → M'[c]? = M[c]? := by
  unfold Mem.free Vec.data
  rcases H.2 with ⟨h1, h2⟩ | ⟨b, h1, h2⟩
  · exact ⟨M, by simp [h1], rfl, fun _ _ => rfl⟩
  · refine ⟨M.set b none, by simp [h1, h2], by simp, ?_⟩
    intro c hc
    rw [List.getElem?_set_ne]
    intro hcb; subst hcb; exact hc h1

theorem vecMake_store (M : Mem B) (l : List B) :
    Store (vecMake M l).1 (vecMake M l).2 l ∧ Delta M (vecMake M l).1 none (vecMake M l).2.buf ∧
      ∀ c, c < M.length → (vecMake M l).1[c]? = M[c]? := by
  unfold vecMake
  split
  · next h =>
    subst h
    exact ⟨⟨rfl, .inl ⟨rfl, rfl⟩⟩, ⟨le_rfl, fun _ _ _ => rfl, by simp⟩, fun _ _ => rfl⟩
  · have : ∀ c, c < M.length → (M ++ [some l])[c]? = M[c]? := fun c hc => List.getElem?_append_left hc
    refine ⟨⟨rfl, .inr ⟨_, rfl, by simp⟩⟩, ⟨by simp, fun c hc _ => this c hc, ?_⟩, this⟩
    intro b hb
    right
    simp only [Option.some.injEq] at hb
    omega

theorem Store.resize {M : Mem B} {v : Vec} {l : List B} (H : Store M v l) (k : Nat) (z : B) :
    ∃ M' v', vecResize M v k z = .ok (M', v') ∧ Store M' v' (fit z k l) ∧ Delta M M' v.buf v'.buf := by
  obtain ⟨h1, h2, h3⟩ := vecMake_store M (fit z k l)
  have hold : ∀ b, v.buf = some b → (vecMake M (fit z k l)).1[b]? = M[b]? := fun b hb => h3 b (H.lt hb)
  obtain ⟨M', h4, h5, h6⟩ := (H.frame hold).free
  refine ⟨M', (vecMake M (fit z k l)).2, ?_, ?_, ?_⟩
  · unfold vecResize
    rw [H.read, Res.ok_bind]
    show (do let M2 ← (vecMake M (fit z k l)).1.free v.data; Res.ok (M2, (vecMake M (fit z k l)).2)) = _
    rw [h4, Res.ok_bind]
  · apply h1.frame
    intro b hb
    apply h6
    intro hv
    rcases h2.new b hb with h | h
    · cases h
    · have := H.lt hv; omega
  · refine ⟨by rw [h5]; exact h2.len, ?_, ?_⟩
    · intro c hc hv
      rw [h6 c hv, h3 c hc]
    · intro b hb
      rcases h2.new b hb with h | h
      · cases h
      · exact .inr h

/-- windows of consecutive blocks of buffer `buf` -/
def WinsAt (buf : Option Nat) (bl : List (List B)) (ws : List Win) : Prop :=
  ws.length = bl.length ∧ ∀ i (h : i < ws.length) (h' : i < bl.length), ws[i].sz = bl[i].length ∧
    (0 < bl[i].length → ws[i].p = buf.map fun b => ⟨b, Mem.segOff bl i⟩)

/-- The object has the value. -/
def Rep (M : Mem B) (o : Obj) : Val B → Prop
  | .uninit s => o.init = false ∧ o.storage = ⟨none, 0⟩ ∧ o.p = none ∧ o.n = 0 ∧ o.block.map Win.sz = s
  | .init bl => o.init = true ∧ Store M o.storage bl.flatten ∧ o.p = o.storage.data ∧ o.n = o.storage.size ∧ WinsAt o.storage.buf bl o.block

theorem Rep.store {M : Mem B} {o : Obj} {v : Val B} (H : Rep M o v) : Store M o.storage v.elems := by
  cases v with
  | uninit s => exact ⟨by rw [H.2.1]; rfl, .inl ⟨by rw [H.2.1], rfl⟩⟩
  | init bl => exact H.2.1

theorem Rep.sizes {M : Mem B} {o : Obj} {v : Val B} (H : Rep M o v) : o.block.map Win.sz = v.sizes := by
  cases v with
  | uninit s => exact H.2.2.2.2
  | init bl =>
    obtain ⟨-, -, -, -, h1, h2⟩ := H
    apply List.ext_getElem (by simp [Val.sizes, h1])
    intro i g1 g2
    simp only [List.length_map] at g1
    simp [Val.sizes, (h2 i g1 (by omega)).1]

theorem Rep.frame {M M' : Mem B} {o : Obj} {v : Val B} (H : Rep M o v) (h : ∀ b, o.storage.buf = some b → M'[b]? = M[b]?) : Rep M' o v := by
  cases v with
  | uninit s => exact H
  | init bl => exact ⟨H.1, H.2.1.frame h, H.2.2⟩

theorem segOff_cons' {α : Type} (x : List α) (xs : List (List α)) (i : Nat) : Mem.segOff (x :: xs) (i + 1) = x.length + Mem.segOff xs i := by
  simp [Mem.segOff]

theorem chain_length (p : Option Ptr) (ws : List Win) : (chain p ws).length = ws.length := by
  induction ws generalizing p with
  | nil => rfl
  | cons w ws ih => simp [chain, ih]

theorem chain_get (buf : Option Nat) (off : Nat) (ws : List Win) (bl : List (List B)) (hl : ws.map Win.sz = bl.map List.length) (i : Nat)
    (h : i < (chain (buf.map fun b => ⟨b, off⟩) ws).length) (h' : i < bl.length) :
    (chain (buf.map fun b => ⟨b, off⟩) ws)[i] = ⟨bl[i].length, buf.map fun b => ⟨b, off + Mem.segOff bl i⟩⟩ := by
  induction ws generalizing off bl i with
  | nil => simp [chain] at h
  | cons w ws ih =>
    cases bl with
    | nil => simp at h'
    | cons l bl =>
      simp only [List.map_cons, List.cons.injEq] at hl
      cases i with
      | zero => simp [chain, hl.1, Mem.segOff]
      | succ i =>
        have e : padd (buf.map fun b => (⟨b, off⟩ : Ptr)) w.sz = buf.map fun b => ⟨b, off + w.sz⟩ := by
          cases buf <;> rfl
        have := ih (off + w.sz) bl hl.2 i (by simpa [chain, chain_length] using h) (by simpa using h')
        simp only [chain, List.getElem_cons_succ, e]
        rw [this, segOff_cons', ← hl.1]
        simp only [Nat.add_assoc]

theorem chain_winsAt (buf : Option Nat) (ws : List Win) (bl : List (List B)) (hl : ws.map Win.sz = bl.map List.length) :
    WinsAt buf bl (chain (buf.map fun b => ⟨b, 0⟩) ws) := by
  have hlen : ws.length = bl.length := by simpa using congrArg List.length hl
  refine ⟨by rw [chain_length, hlen], ?_⟩
  intro i h h'
  rw [chain_get buf 0 ws bl hl i h h']
  simp

/-! ### constructors and copies -/

theorem ctorEmpty_rep (M : Mem B) : Rep M ctorEmpty (.uninit []) := ⟨rfl, rfl, rfl, rfl, rfl⟩

theorem ctorN_rep (M : Mem B) (nb : Nat) : Rep M (ctorN nb) (.uninit (List.replicate nb 0)) :=
  ⟨rfl, rfl, rfl, rfl, by simp [ctorN]⟩

theorem cut_length (nb bs : Nat) (l : List B) : (cut nb bs l).length = nb := by simp [cut]

theorem cut_flatten (nb bs : Nat) (l : List B) (h : l.length = nb * bs) : (cut nb bs l).flatten = l := by
  induction nb generalizing l with
  | zero =>
    simp only [Nat.zero_mul] at h
    rw [List.length_eq_zero_iff.mp h]; rfl
  | succ nb ih =>
    have : cut (nb + 1) bs l = l.take bs :: cut nb bs (l.drop bs) := by
      unfold cut
      rw [List.range_succ_eq_map, List.map_cons, List.map_map]
      simp only [Nat.zero_mul, List.drop_zero, Function.comp_def, List.drop_drop]
      congr 1
      apply List.map_congr_left
      intro i _
      have : i.succ * bs = bs + i * bs := by rw [Nat.succ_mul]; omega
      rw [this]
    rw [this, List.flatten_cons, ih _ (by rw [List.length_drop, h, Nat.succ_mul]; omega), List.take_append_drop]

theorem cut_get_length (nb bs : Nat) (l : List B) (h : l.length = nb * bs) (i : Nat) (hi : i < (cut nb bs l).length) : (cut nb bs l)[i].length = bs := by
  rw [cut_length] at hi
  simp only [cut, List.getElem_map, List.getElem_range, List.length_take, List.length_drop, h]
  have : i * bs + bs ≤ nb * bs := by
    have := Nat.mul_le_mul_right bs hi
    rw [Nat.succ_mul] at this
    exact this
  omega

theorem segOff_const (bl : List (List B)) (bs i : Nat) (hi : i ≤ bl.length) (h : ∀ i (hi : i < bl.length), bl[i].length = bs) : Mem.segOff bl i = i * bs := by
  unfold Mem.segOff
  rw [List.length_flatten]
  have : (bl.take i).map List.length = List.replicate i bs := by
    apply List.ext_getElem
    · simp; omega
    · intro k h1 h2
      simp only [List.length_map, List.length_take] at h1
      simp [h k (by omega)]
  rw [this]
  simp

theorem constWins_winsAt (buf : Option Nat) (nb bs : Nat) (bl : List (List B)) (hl : bl.length = nb) (hs : ∀ i (hi : i < bl.length), bl[i].length = bs) :
    WinsAt buf bl (constWins (buf.map fun b => ⟨b, 0⟩) nb bs) := by
  refine ⟨by simp [constWins, hl], ?_⟩
  intro i h h'
  simp only [constWins, List.getElem_map, List.getElem_range]
  refine ⟨(hs i h').symm, fun _ => ?_⟩
  rw [segOff_const bl bs i (by omega) hs]
  cases buf <;> simp [padd]

theorem ctorConst_rep (M : Mem B) (z : B) (nb bs : Nat) :
    Rep (ctorConst M z nb bs).1 (ctorConst M z nb bs).2 (.init (List.replicate nb (List.replicate bs z))) ∧
      Delta M (ctorConst M z nb bs).1 none (ctorConst M z nb bs).2.storage.buf := by
  obtain ⟨h1, h2, -⟩ := vecMake_store M (List.replicate (nb * bs) z)
  refine ⟨⟨rfl, ?_, rfl, rfl, ?_⟩, h2⟩
  · have : (List.replicate nb (List.replicate bs z)).flatten = List.replicate (nb * bs) z := by
      rw [List.flatten_replicate_replicate]
    rw [this]; exact h1
  · exact constWins_winsAt _ nb bs _ (by simp) (by simp)

theorem copyCtor_rep {M : Mem B} {a : Obj} {v : Val B} (H : Rep M a v) :
    ∃ M' o, copyCtor M a = .ok (M', o) ∧ Rep M' o v ∧ Delta M M' none o.storage.buf ∧ ∀ c, c < M.length → M'[c]? = M[c]? := by
  obtain ⟨h1, h2, h3⟩ := vecMake_store M v.elems
  refine ⟨_, _, by rw [copyCtor, H.store.read, Res.ok_bind], ?_, h2, h3⟩
  cases v with
  | uninit s => exact ⟨H.1, by simp [vecMake, Val.elems, sync], by simp [vecMake, Val.elems, sync, Vec.data], by simp [vecMake, Val.elems, sync], by
      rw [← H.2.2.2.2]
      apply List.ext_getElem
      · simp [sync, chain_length]
      · intro i g1 g2
        simp only [sync, List.length_map, chain_length] at g1
        have : ∀ (p : Option Ptr) (ws : List Win), (chain p ws).map Win.sz = ws.map Win.sz := by
          intro p ws
          induction ws generalizing p with
          | nil => rfl
          | cons w ws ih => simp [chain, ih]
        simp only [sync, this]⟩
  | init bl =>
    refine ⟨H.1, h1, rfl, rfl, ?_⟩
    exact chain_winsAt _ _ _ H.sizes

theorem swap_rep {M : Mem B} {a b : Obj} {v w : Val B} (Ha : Rep M a v) (Hb : Rep M b w) : Rep M (swap a b).1 w ∧ Rep M (swap a b).2 v := by
  constructor
  · cases w with
    | uninit s => exact ⟨Hb.1, Hb.2.1, by simp [swap, sync, Hb.2.1, Vec.data], by simp [swap, sync, Hb.2.1], Hb.2.2.2.2⟩
    | init bl => exact ⟨Hb.1, Hb.2.1, rfl, rfl, Hb.2.2.2.2⟩
  · cases v with
    | uninit s => exact ⟨Ha.1, Ha.2.1, by simp [swap, sync, Ha.2.1, Vec.data], by simp [swap, sync, Ha.2.1], Ha.2.2.2.2⟩
    | init bl => exact ⟨Ha.1, Ha.2.1, rfl, rfl, Ha.2.2.2.2⟩

theorem assign_rep {M : Mem B} {a b : Obj} {v w : Val B} (Ha : Rep M a v) (Hb : Rep M b w) :
    ∃ M' o, assign M a b = .ok (M', o) ∧ Rep M' o w ∧ Delta M M' a.storage.buf o.storage.buf := by
  obtain ⟨M1, t, h1, h2, h3, h4⟩ := copyCtor_rep Hb
  have Ha1 : Rep M1 a v := Ha.frame fun c hc => h4 c (Ha.store.lt hc)
  obtain ⟨g1, g2⟩ := swap_rep h2 Ha1
  obtain ⟨M2, f1, f2, f3⟩ := g1.store.free
  have e1 : (VbV.swap t a).1.storage = a.storage := rfl
  have e2 : (VbV.swap t a).2.storage = t.storage := rfl
  have hne : ∀ c, t.storage.buf = some c → a.storage.buf ≠ some c := by
    intro c hc ha
    rcases h3.new c hc with h | h
    · cases h
    · have := Ha.store.lt ha; omega
  refine ⟨M2, (VbV.swap t a).2, ?_, ?_, ?_⟩
  · unfold assign
    rw [h1, Res.ok_bind]
    dsimp only
    rw [dtor, f1, Res.ok_bind]
  · apply g2.frame
    intro c hc
    rw [e2] at hc
    apply f3
    rw [e1]
    exact hne c hc
  · rw [e1] at f3
    refine ⟨by rw [f2]; exact h3.len, ?_, ?_⟩
    · intro c hc hca
      rw [f3 c hca, h4 c hc]
    · intro c hc
      rw [e2] at hc
      rcases h3.new c hc with h | h
      · cases h
      · exact .inr h

/-! ### resize and create -/

theorem resizeBlocks_sizes (ws : List Win) (nb : Nat) : (resizeBlocks ws nb).map Win.sz = fit 0 nb (ws.map Win.sz) := by
  simp [resizeBlocks, fit, List.map_take]

theorem fit_length {α : Type} (z : α) (k : Nat) (l : List α) : (fit z k l).length = k := by
  simp [fit]; omega

theorem resizeN_rep {M : Mem B} {o : Obj} {v : Val B} (H : Rep M o v) (z : B) (nb : Nat) :
    ∃ M' o', resizeN M z o nb = .ok (M', o') ∧ Rep M' o' (.uninit (fit 0 nb v.sizes)) ∧ Delta M M' o.storage.buf o'.storage.buf := by
  obtain ⟨M1, st, h1, h2, h3⟩ := H.store.resize 0 z
  have hst : st = ⟨none, 0⟩ := by
    unfold vecResize at h1
    rw [H.store.read, Res.ok_bind] at h1
    simp only [List.take_zero, Nat.zero_sub, List.replicate_zero, List.append_nil] at h1
    unfold vecMake at h1
    rw [if_pos rfl] at h1
    cases hf : M.free o.storage.data with
    | ok M2 => simp only [hf, Res.ok_bind, Res.ok.injEq, Prod.mk.injEq] at h1; exact h1.2.symm
    | throw e => simp only [hf] at h1; cases h1
    | ub => simp only [hf] at h1; cases h1
  refine ⟨M1, _, by rw [resizeN, h1, Res.ok_bind], ⟨rfl, hst, by simp [sync, hst, Vec.data], by simp [sync, hst], ?_⟩, h3⟩
  simp only [sync]
  rw [resizeBlocks_sizes, H.sizes]

theorem resizeConst_rep {M : Mem B} {o : Obj} {v : Val B} (H : Rep M o v) (z : B) (nb bs : Nat) :
    ∃ M' o', resizeConst M z o nb bs = .ok (M', o') ∧ Rep M' o' (.init (cut nb bs (fit z (nb * bs) v.elems))) ∧
      Delta M M' o.storage.buf o'.storage.buf := by
  obtain ⟨M1, st, h1, h2, h3⟩ := H.store.resize (nb * bs) z
  refine ⟨M1, _, by rw [resizeConst, h1, Res.ok_bind], ⟨rfl, ?_, rfl, rfl, ?_⟩, h3⟩
  · rw [cut_flatten _ _ _ (fit_length _ _ _)]; exact h2
  · have : (resizeBlocks o.block nb).length = nb := by
      have := congrArg List.length (resizeBlocks_sizes o.block nb)
      rw [List.length_map, fit_length] at this
      exact this
    simp only [sync, this]
    exact constWins_winsAt _ nb bs _ (cut_length _ _ _) (fun i hi => cut_get_length _ _ _ (fit_length _ _ _) i hi)

theorem createGo_spec (sizes : List (Option Nat)) : ∀ (i : Nat) (o : Obj), i + sizes.length = o.block.length →
    ∃ o', createGo o i sizes = .ok o' ∧ o'.p = o.p ∧ o'.n = o.n ∧ o'.storage = o.storage ∧ o'.init = o.init ∧
      o'.block.map Win.sz = (o.block.map Win.sz).take i ++ List.zipWith (fun new old => new.getD old) sizes ((o.block.map Win.sz).drop i) := by
  induction sizes with
  | nil =>
    intro i o h
    simp only [List.length_nil, Nat.add_zero] at h
    exact ⟨o, rfl, rfl, rfl, rfl, rfl, by simp [List.take_of_length_le, h]⟩
  | cons k ks ih =>
    intro i o h
    simp only [List.length_cons] at h
    have hi : i < o.block.length := by omega
    obtain ⟨o1, e1, e2⟩ : ∃ o1, createStep o i k = .ok o1 ∧ o1.p = o.p ∧ o1.n = o.n ∧ o1.storage = o.storage ∧ o1.init = o.init ∧
          o1.block.map Win.sz = (o.block.map Win.sz).set i (k.getD o.block[i].sz) := by
      cases k with
      | none =>
        refine ⟨o, rfl, rfl, rfl, rfl, rfl, ?_⟩
        apply List.ext_getElem (by simp)
        intro q g1 g2
        simp only [List.getElem_set, List.getElem_map, Option.getD_none]
        split
        · next hq => subst hq; rfl
        · rfl
      | some k =>
        refine ⟨{ o with block := o.block.set i { o.block[i] with sz := k } }, by simp only [createStep, setblocksize, List.getElem?_eq_getElem hi], rfl, rfl,
          rfl, rfl, ?_⟩
        simp [List.map_set]
    obtain ⟨a1, a2, a3, a4, a5⟩ := e2
    have hlen : o1.block.length = o.block.length := by
      have := congrArg List.length a5
      simpa using this
    obtain ⟨o', b1, b2, b3, b4, b5, b6⟩ := ih (i + 1) o1 (by omega)
    refine ⟨o', by rw [createGo, e1, Res.ok_bind, b1], by rw [b2, a1], by rw [b3, a2], by rw [b4, a3], by rw [b5, a4], ?_⟩
    rw [b6, a5]
    have hi' : i < (o.block.map Win.sz).length := by simpa using hi
    rw [List.take_succ_eq_append_getElem (by simpa using hi), List.getElem_set_self, List.take_set_of_le (le_refl i),
      List.drop_set_of_lt (by omega), List.drop_eq_getElem_cons hi', List.zipWith_cons_cons, List.append_assoc]
    simp

theorem create_rep {M : Mem B} {o : Obj} {s : List Nat} (H : Rep M o (.uninit s)) (z : B) (sizes : List (Option Nat)) (hl : sizes.length = s.length)
    (hpos : 0 < s.length) :
    ∃ M' o', create M z o sizes = .ok (M', o') ∧
      Rep M' o' (.init ((List.zipWith (fun new old => new.getD old) sizes s).map fun k => List.replicate k z)) ∧
      Delta M M' o.storage.buf o'.storage.buf := by
  have hbl : o.block.length = s.length := by rw [← H.2.2.2.2, List.length_map]
  obtain ⟨o1, h1, -, -, h4, h5, h6⟩ := createGo_spec sizes 0 o (by omega)
  simp only [List.take_zero, List.nil_append, List.drop_zero, H.2.2.2.2] at h6
  set ns := List.zipWith (fun (new : Option Nat) old => new.getD old) sizes s with hns
  have hl1 : o1.block.length = s.length := by
    have := congrArg List.length h6
    simpa [ns, hl] using this
  have hst : Store M o1.storage [] := by rw [h4]; exact H.store
  obtain ⟨M1, st, g1, g2, g3⟩ := hst.resize ns.sum z
  have hflat : (ns.map fun k => List.replicate k z).flatten = fit z ns.sum [] := by
    simp only [fit, List.take_nil, List.nil_append, List.length_nil, Nat.sub_zero]
    clear * -
    induction ns with
    | nil => rfl
    | cons a t ih => rw [List.map_cons, List.flatten_cons, ih, List.sum_cons, List.replicate_add]
  refine ⟨M1, { sync { o1 with storage := st } with block := chain (sync { o1 with storage := st }).p o1.block, init := true }, ?_,
    ⟨rfl, ?_, rfl, rfl, ?_⟩, ?_⟩
  · unfold create
    rw [h1, Res.ok_bind, dtorIter, if_pos ⟨by omega, by rw [h5, H.1]; simp⟩, allocate, if_neg (by rw [h5, H.1]; simp), h6, g1, Res.ok_bind]
    dsimp only
    rw [if_neg]
    · rfl
    · simp only [sync]
      intro h0
      rw [h0] at hl1
      simp at hl1
      omega
  · rw [hflat]; exact g2
  · apply chain_winsAt
    rw [h6, List.map_map]
    simp [Function.comp_def]
  · rw [← h4]; exact g3

end VbV
end Istl
