import Verif.Lemmas.VbVector

/-! # C14: VariableBlockVector -/

namespace Istl
namespace VbV
variable {B : Type}

theorem segOff_eq (bl : List (List B)) (i : Nat) : Mem.segOff bl i = ((bl.map List.length).take i).sum := by
  rw [Mem.segOff, List.length_flatten, List.map_take]

theorem WinsAt.congr {buf : Option Nat} {bl bl' : List (List B)} {ws : List Win} (H : WinsAt buf bl ws) (h : bl'.map List.length = bl.map List.length) :
    WinsAt buf bl' ws := by
  have hl : bl'.length = bl.length := by simpa using congrArg List.length h
  refine ⟨by rw [H.1, hl], ?_⟩
  intro i g1 g2
  have g3 : i < bl.length := by omega
  have e : bl'[i].length = bl[i].length := by
    have : (bl'.map List.length)[i]? = (bl.map List.length)[i]? := by rw [h]
    simpa [List.getElem?_map, List.getElem?_eq_getElem g2, List.getElem?_eq_getElem g3] using this
  have := H.2 i g1 g3
  rw [segOff_eq, h, ← segOff_eq, e]
  exact this

theorem padd_map (buf : Option Nat) (a k : Nat) : padd (buf.map fun b => ⟨b, a⟩) k = buf.map fun b => ⟨b, a + k⟩ := by
  cases buf <;> rfl

theorem Store.read1 {M : Mem B} {v : Vec} {l : List B} (H : Store M v l) (k : Nat) (hk : k < l.length) :
    M.read (v.buf.map fun b => ⟨b, k⟩) 1 = .ok [l[k]] := by
  rcases H.2 with ⟨-, h⟩ | ⟨b, h1, h2⟩
  · rw [h] at hk; simp at hk
  · have : k + 1 ≤ l.length := hk
    simp only [Mem.read, h1, Option.map_some, h2, Nat.one_ne_zero, if_false, this, if_true]
    rw [List.drop_eq_getElem_cons hk]
    rfl

theorem Store.write1 {M : Mem B} {v : Vec} {l : List B} (H : Store M v l) (k : Nat) (hk : k < l.length) (x : B) :
    ∃ M', M.write (v.buf.map fun b => ⟨b, k⟩) [x] = .ok M' ∧ Store M' v (l.set k x) ∧ Delta M M' v.buf v.buf := by
  have hs := H.1
  rcases H.2 with ⟨-, h⟩ | ⟨b, h1, h2⟩
  · rw [h] at hk; simp at hk
  · have hb := H.lt h1
    have : k + 1 ≤ l.length := hk
    refine ⟨M.set b (some (l.set k x)), ?_, ⟨by simp [hs], .inr ⟨b, h1, by simp [hb]⟩⟩, ⟨by simp, ?_, fun c hc => .inl hc⟩⟩
    · simp only [Mem.write, h1, Option.map_some, h2, List.length_singleton, this, if_true]
      rw [if_neg (by simp)]
      have e : l.set k x = l.take k ++ x :: l.drop (k + 1) := by rw [List.set_eq_take_append_cons_drop, if_pos hk]
      rw [e]
      simp
    · intro c _ hc
      rw [List.getElem?_set_ne]
      intro hcb; subst hcb; exact hc h1

theorem Delta.refl (M : Mem B) (buf : Option Nat) : Delta M M buf buf := ⟨le_rfl, fun _ _ _ => rfl, fun _ h => .inl h⟩

theorem Delta.trans {M M' M'' : Mem B} {a : Option Nat} (h1 : Delta M M' a a) (h2 : Delta M' M'' a a) : Delta M M'' a a := by
  refine ⟨h1.len.trans h2.len, ?_, fun _ h => .inl h⟩
  intro c hc hn
  rw [h2.old c (lt_of_lt_of_le hc h1.len) hn, h1.old c hc hn]

theorem flatten_modify (bl : List (List B)) (i k : Nat) (hi : i < bl.length) (hk : k < bl[i].length) (x : B) :
    (bl.modify i fun l => l.set k x).flatten = bl.flatten.set (Mem.segOff bl i + k) x := by
  have e : (bl.modify i fun l => l.set k x) = bl.set i (bl[i].set k x) := by
    apply List.ext_getElem (by simp)
    intro q h1 h2
    rw [List.getElem_modify, List.getElem_set]
    split
    · next h => subst h; rfl
    · rfl
  rw [e, Mem.flatten_set _ _ hi, Mem.flatten_split bl i hi, List.append_assoc, List.append_assoc, List.set_append_right _ _ (by simp [Mem.segOff])]
  congr 1
  have : Mem.segOff bl i + k - (bl.take i).flatten.length = k := by simp [Mem.segOff]
  rw [this, List.set_append_left _ _ hk]

theorem writeElem_rep {M : Mem B} {o : Obj} {bl : List (List B)} (H : Rep M o (.init bl)) (b k : Nat) (hb : b < bl.length) (hk : k < bl[b].length) (x : B) :
    ∃ M', writeElem M o b k x = .ok M' ∧ Rep M' o (.init (bl.modify b fun l => l.set k x)) ∧ Delta M M' o.storage.buf o.storage.buf := by
  obtain ⟨h1, h2, h3, h4, h5⟩ := H
  have hbo : b < o.block.length := by rw [h5.1]; exact hb
  have hw := (h5.2 b hbo hb).2 (by omega)
  have hlt : Mem.segOff bl b + k < bl.flatten.length := by
    rw [Mem.flatten_split bl b hb]
    simp [Mem.segOff]
    omega
  obtain ⟨M', g1, g2, g3⟩ := h2.write1 (Mem.segOff bl b + k) hlt x
  refine ⟨M', ?_, ⟨h1, ?_, h3, h4, ?_⟩, g3⟩
  · simp only [writeElem, List.getElem?_eq_getElem hbo, hw, padd_map, g1]
  · rw [flatten_modify bl b k hb hk]; exact g2
  · apply h5.congr
    apply List.ext_getElem (by simp)
    intro q q1 q2
    simp only [List.getElem_map, List.getElem_modify]
    split <;> simp

theorem readBlock_rep {M : Mem B} {o : Obj} {bl : List (List B)} (H : Rep M o (.init bl)) (i : Nat) (hi : i < bl.length) :
    readBlock M o i = .ok bl[i] := by
  obtain ⟨-, h2, -, -, h5⟩ := H
  have hio : i < o.block.length := by rw [h5.1]; exact hi
  obtain ⟨w1, w2⟩ := h5.2 i hio hi
  simp only [readBlock, List.getElem?_eq_getElem hio, w1]
  have hH : M.Holds o.storage.buf bl [] := by
    rcases h2.2 with ⟨a, b⟩ | ⟨b, a1, a2⟩
    · rw [a]; exact ⟨b, rfl⟩
    · rw [a1]; simp only [Mem.Holds, a2, List.append_nil]
  exact hH.read hi w2

theorem readElem_rep {M : Mem B} {o : Obj} {bl : List (List B)} (H : Rep M o (.init bl)) (b k : Nat) (hb : b < bl.length) (hk : k < bl[b].length) :
    readElem M o b k = .ok bl[b][k] := by
  obtain ⟨h1, h2, h3, h4, h5⟩ := H
  have hbo : b < o.block.length := by rw [h5.1]; exact hb
  have hw := (h5.2 b hbo hb).2 (by omega)
  have hlt : Mem.segOff bl b + k < bl.flatten.length := by
    rw [Mem.flatten_split bl b hb]
    simp [Mem.segOff]
    omega
  have g := h2.read1 (Mem.segOff bl b + k) hlt
  simp only [readElem, List.getElem?_eq_getElem hbo, hw, padd_map, g, Res.ok_bind]
  have e : bl.flatten[Mem.segOff bl b + k] = bl[b][k] := by
    simp only [Mem.flatten_split bl b hb, Mem.segOff]
    rw [List.getElem_append_left (by simp; omega), List.getElem_append_right (by simp)]
    simp
  rw [e]; rfl

theorem flat_loop (f : B → B → B) {M : Mem B} {vo vy : Vec} {l ly : List B} (Ho : Store M vo l) (Hy : Store M vy ly) (hl : l.length = ly.length) (k : Nat)
    (hk : k ≤ l.length) :
    ∃ M', forRangeM k (flatStep f vo.data vy.data) M = .ok M' ∧ Store M' vo ((List.zipWith f l ly).take k ++ l.drop k) ∧
      Delta M M' vo.buf vo.buf := by
  induction k with
  | zero => exact ⟨M, rfl, by simpa using Ho, Delta.refl _ _⟩
  | succ k ih =>
    obtain ⟨M1, h1, h2, h3⟩ := ih (by omega)
    have hlen : ((List.zipWith f l ly).take k).length = k := by simp; omega
    have hkl : k < ((List.zipWith f l ly).take k ++ l.drop k).length := by simp; omega
    have hgo : ((List.zipWith f l ly).take k ++ l.drop k)[k] = l[k] := by
      rw [List.getElem_append_right (by omega)]
      simp [hlen]
    have ra := h2.read1 k hkl
    rw [hgo] at ra
    have rb : M1.read (vy.buf.map fun b => ⟨b, k⟩) 1 = .ok [ly[k]'(by omega)] := by
      by_cases hb : vy.buf = vo.buf
      · have e : ly = l := by
          rcases Ho.2 with ⟨a1, a2⟩ | ⟨b, a1, a2⟩
          · rw [a2] at hk; simp at hk
          · rcases Hy.2 with ⟨c1, c2⟩ | ⟨c, c1, c2⟩
            · rw [hb, a1] at c1; cases c1
            · rw [hb, a1] at c1
              cases c1
              rw [a2] at c2
              cases c2
              rfl
        rw [hb, ra]
        simp [e]
      · have := Hy.frame (M' := M1) (by
          intro b hb'
          apply h3.old b (Hy.lt hb')
          intro h; exact hb (by rw [hb', h]))
        exact this.read1 k (by omega)
    obtain ⟨M2, w1, w2, w3⟩ := h2.write1 k hkl (f l[k] (ly[k]'(by omega)))
    refine ⟨M2, ?_, ?_, h3.trans w3⟩
    · rw [forRangeM_succ, h1, Res.ok_bind]
      simp only [flatStep, Vec.data, padd_map, Nat.zero_add, ra, rb, Res.ok_bind, w1]
    · have e : ((List.zipWith f l ly).take k ++ l.drop k).set k (f l[k] (ly[k]'(by omega))) =
          (List.zipWith f l ly).take (k + 1) ++ l.drop (k + 1) := by
        rw [List.set_append_right _ _ (by omega), hlen, Nat.sub_self, List.drop_eq_getElem_cons (by omega), List.set_cons_zero,
          List.take_succ_eq_append_getElem (by simp; omega), List.append_assoc]
        simp
      rw [← e]; exact w2

theorem zipWith_flatten (f : B → B → B) (bl bl' : List (List B)) (h : bl.map List.length = bl'.map List.length) :
    List.zipWith f bl.flatten bl'.flatten = (List.zipWith (List.zipWith f) bl bl').flatten := by
  induction bl generalizing bl' with
  | nil => cases bl' <;> simp at h ⊢
  | cons a t ih =>
    cases bl' with
    | nil => simp at h
    | cons a' t' =>
      simp only [List.map_cons, List.cons.injEq] at h
      rw [List.flatten_cons, List.flatten_cons, List.zipWith_append h.1, List.zipWith_cons_cons, List.flatten_cons, ih t' h.2]

theorem flatOp_rep (f : B → B → B) {M : Mem B} {o y : Obj} {bl bl' : List (List B)} (Ho : Rep M o (.init bl)) (Hy : Rep M y (.init bl'))
    (h : bl.map List.length = bl'.map List.length) :
    ∃ M', flatOp f M o y = .ok M' ∧ Rep M' o (.init (List.zipWith (List.zipWith f) bl bl')) ∧ Delta M M' o.storage.buf o.storage.buf := by
  obtain ⟨h1, h2, h3, h4, h5⟩ := Ho
  have hl : bl.flatten.length = bl'.flatten.length := by rw [List.length_flatten, List.length_flatten, h]
  obtain ⟨M', g1, g2, g3⟩ := flat_loop f h2 Hy.2.1 hl bl.flatten.length le_rfl
  rw [List.drop_length, List.append_nil, List.take_of_length_le (by simp), zipWith_flatten f bl bl' h] at g2
  refine ⟨M', ?_, ⟨h1, g2, h3, h4, ?_⟩, g3⟩
  · rw [flatOp, h4, h2.1, h3, Hy.2.2.1, g1]
  · apply h5.congr
    have hlb : bl.length = bl'.length := by simpa using congrArg List.length h
    apply List.ext_getElem (by simp [hlb])
    intro q q1 q2
    simp only [List.length_map] at q2
    have e : bl[q].length = (bl'[q]'(by omega)).length := by
      have : (bl.map List.length)[q]? = (bl'.map List.length)[q]? := by rw [h]
      simpa [List.getElem?_map, List.getElem?_eq_getElem q2, List.getElem?_eq_getElem (show q < bl'.length by omega)] using this
    simp [e]

/-! ### all vectors of a program -/

/-- Every vector has its value, and no two live vectors share a buffer. -/
structure Inv (w : World B) (a : Vals B) : Prop where
  each : ∀ i : Nat, (∃ o v, w.objs[i]? = some (some o) ∧ a[i]? = some (some v) ∧ Rep w.mem o v) ∨ (w.objs[i]? = some none ∧ a[i]? = some none) ∨
    (w.objs[i]? = none ∧ a[i]? = none)
  sep : ∀ (i j : Nat) (o o' : Obj), i ≠ j → w.objs[i]? = some (some o) → w.objs[j]? = some (some o') → ∀ b, o.storage.buf = some b → o'.storage.buf ≠ some b

theorem Inv.live {w : World B} {a : Vals B} (H : Inv w a) {i : Nat} {v : Val B} (h : a[i]? = some (some v)) :
    ∃ o, w.objs[i]? = some (some o) ∧ Rep w.mem o v := by
  rcases H.each i with ⟨o, v', h1, h2, h3⟩ | ⟨h1, h2⟩ | ⟨h1, h2⟩
  · rw [h] at h2; cases h2; exact ⟨o, h1, h3⟩
  · rw [h] at h2; cases h2
  · rw [h] at h2; cases h2

theorem Inv.length {w : World B} {a : Vals B} (H : Inv w a) : w.objs.length = a.length := by
  have h1 := H.each w.objs.length
  have h2 := H.each a.length
  have e1 : w.objs[w.objs.length]? = none := List.getElem?_eq_none le_rfl
  have e2 : a[a.length]? = none := List.getElem?_eq_none le_rfl
  rcases h1 with ⟨o, v, g, -⟩ | ⟨g, -⟩ | ⟨-, g⟩
  · rw [e1] at g; cases g
  · rw [e1] at g; cases g
  · rcases h2 with ⟨o, v, -, g', -⟩ | ⟨-, g'⟩ | ⟨g', -⟩
    · rw [e2] at g'; cases g'
    · rw [e2] at g'; cases g'
    · rw [List.getElem?_eq_none_iff] at g g'
      omega

theorem Inv.set {w : World B} {a : Vals B} (H : Inv w a) {i : Nat} {o : Obj} (ho : w.objs[i]? = some (some o)) {M' : Mem B} {o' : Obj} {v' : Val B}
    (hd : Delta w.mem M' o.storage.buf o'.storage.buf) (hr : Rep M' o' v') :
    Inv { w with mem := M', objs := w.objs.set i (some o') } (a.set i (some v')) := by
  have hi : i < w.objs.length := by
    by_contra h
    rw [List.getElem?_eq_none (by omega)] at ho
    cases ho
  have hia : i < a.length := by rw [← H.length]; exact hi
  have hfr : ∀ (j : Nat) (oj : Obj), j ≠ i → w.objs[j]? = some (some oj) → ∀ b, oj.storage.buf = some b → b < w.mem.length ∧ o.storage.buf ≠ some b := by
    intro j oj hj h b hb
    rcases H.each j with ⟨o1, v1, h1, -, h3⟩ | ⟨h1, -⟩ | ⟨h1, -⟩
    · rw [h] at h1; cases h1
      exact ⟨h3.store.lt hb, H.sep j i oj o hj h ho b hb⟩
    · rw [h] at h1; cases h1
    · rw [h] at h1; cases h1
  constructor
  · intro j
    by_cases hj : j = i
    · subst hj
      left
      exact ⟨o', v', by simp [hi], by simp [hia], hr⟩
    · simp only [List.getElem?_set_ne (Ne.symm hj)]
      rcases H.each j with ⟨o1, v1, h1, h2, h3⟩ | h | h
      · left
        refine ⟨o1, v1, h1, h2, h3.frame ?_⟩
        intro b hb
        obtain ⟨g1, g2⟩ := hfr j o1 hj h1 b hb
        exact hd.old b g1 g2
      · exact .inr (.inl h)
      · exact .inr (.inr h)
  · intro j k oj ok hjk hj hk b hb hb'
    by_cases h1 : j = i
    · subst h1
      simp only [List.getElem?_set_self hi, Option.some.injEq] at hj
      subst hj
      simp only [List.getElem?_set_ne hjk] at hk
      obtain ⟨g1, g2⟩ := hfr k ok (Ne.symm hjk) hk b hb'
      rcases hd.new b hb with h | h
      · exact g2 h
      · omega
    · simp only [List.getElem?_set_ne (Ne.symm h1)] at hj
      by_cases h2 : k = i
      · subst h2
        simp only [List.getElem?_set_self hi, Option.some.injEq] at hk
        subst hk
        obtain ⟨g1, g2⟩ := hfr j oj h1 hj b hb
        rcases hd.new b hb' with h | h
        · exact g2 h
        · omega
      · simp only [List.getElem?_set_ne (Ne.symm h2)] at hk
        exact H.sep j k oj ok hjk hj hk b hb hb'

theorem Inv.push {w : World B} {a : Vals B} (H : Inv w a) {M' : Mem B} {o' : Obj} {v' : Val B} (hd : Delta w.mem M' none o'.storage.buf)
    (hr : Rep M' o' v') : Inv { w with mem := M', objs := w.objs ++ [some o'] } (a ++ [some v']) := by
  have hlen := H.length
  have hold : ∀ (j : Nat) (oj : Obj), w.objs[j]? = some (some oj) → ∀ b, oj.storage.buf = some b → b < w.mem.length := by
    intro j oj h b hb
    rcases H.each j with ⟨o1, v1, h1, -, h3⟩ | ⟨h1, -⟩ | ⟨h1, -⟩
    · rw [h] at h1; cases h1
      exact h3.store.lt hb
    · rw [h] at h1; cases h1
    · rw [h] at h1; cases h1
  have hget : ∀ (j : Nat) (oj : Obj), (w.objs ++ [some o'])[j]? = some (some oj) → (j < w.objs.length ∧ w.objs[j]? = some (some oj)) ∨ (j = w.objs.length ∧ oj = o') := by
    intro j oj h
    rcases Nat.lt_trichotomy j w.objs.length with h1 | h1 | h1
    · rw [List.getElem?_append_left h1] at h; exact .inl ⟨h1, h⟩
    · subst h1; simp at h; exact .inr ⟨rfl, h.symm⟩
    · rw [List.getElem?_eq_none (by simp; omega)] at h; cases h
  constructor
  · intro j
    rcases Nat.lt_trichotomy j w.objs.length with h1 | h1 | h1
    · simp only [List.getElem?_append_left h1, List.getElem?_append_left (show j < a.length by omega)]
      rcases H.each j with ⟨o1, v1, g1, g2, g3⟩ | h | h
      · left
        exact ⟨o1, v1, g1, g2, g3.frame fun b hb => hd.old b (hold j o1 g1 b hb) (by simp)⟩
      · exact .inr (.inl h)
      · exact .inr (.inr h)
    · subst h1
      left
      exact ⟨o', v', by simp, by simp [hlen], hr⟩
    · right; right
      exact ⟨List.getElem?_eq_none (by simp; omega), List.getElem?_eq_none (by simp; omega)⟩
  · intro j k oj ok hjk hj hk b hb hb'
    rcases hget j oj hj with ⟨h1, h2⟩ | ⟨h1, h2⟩ <;> rcases hget k ok hk with ⟨h3, h4⟩ | ⟨h3, h4⟩
    · exact H.sep j k oj ok hjk h2 h4 b hb hb'
    · subst h4
      have := hold j oj h2 b hb
      rcases hd.new b hb' with h | h
      · cases h
      · omega
    · subst h2
      have := hold k ok h4 b hb'
      rcases hd.new b hb with h | h
      · cases h
      · omega
    · omega

theorem Inv.del {w : World B} {a : Vals B} (H : Inv w a) {i : Nat} {o : Obj} (ho : w.objs[i]? = some (some o)) {M' : Mem B}
    (hd : ∀ c, o.storage.buf ≠ some c → M'[c]? = w.mem[c]?) : Inv { w with mem := M', objs := w.objs.set i none } (a.set i none) := by
  have hi : i < w.objs.length := by
    by_contra h
    rw [List.getElem?_eq_none (by omega)] at ho
    cases ho
  have hia : i < a.length := by rw [← H.length]; exact hi
  constructor
  · intro j
    by_cases hj : j = i
    · subst hj
      right; left
      exact ⟨by simp [hi], by simp [hia]⟩
    · simp only [List.getElem?_set_ne (Ne.symm hj)]
      rcases H.each j with ⟨o1, v1, h1, h2, h3⟩ | h | h
      · left
        exact ⟨o1, v1, h1, h2, h3.frame fun b hb => hd b (H.sep j i o1 o hj h1 ho b hb)⟩
      · exact .inr (.inl h)
      · exact .inr (.inr h)
  · intro j k oj ok hjk hj hk
    have g : ∀ (q : Nat) (oq : Obj), (w.objs.set i none)[q]? = some (some oq) → w.objs[q]? = some (some oq) := by
      intro q oq h
      by_cases hq : q = i
      · subst hq; simp [hi] at h
      · rw [List.getElem?_set_ne (Ne.symm hq)] at h; exact h
    exact H.sep j k oj ok hjk (g j oj hj) (g k ok hk)

theorem Inv.swap {w : World B} {a : Vals B} (H : Inv w a) {i j : Nat} {oi oj : Obj} (hi : w.objs[i]? = some (some oi)) (hj : w.objs[j]? = some (some oj))
    {vi vj : Val B} (hvi : a[i]? = some (some vi)) (hvj : a[j]? = some (some vj)) :
    Inv { w with objs := (w.objs.set i (some (VbV.swap oi oj).1)).set j (some (VbV.swap oi oj).2) }
      ((a.set i (some vj)).set j (some vi)) := by
  obtain ⟨o1, e1, ri⟩ := H.live hvi
  rw [hi] at e1; cases e1
  obtain ⟨o2, e2, rj⟩ := H.live hvj
  rw [hj] at e2; cases e2
  obtain ⟨r1, r2⟩ := swap_rep ri rj
  have lt_of : ∀ {α : Type} {l : List α} {k : Nat} {x : α}, l[k]? = some x → k < l.length := by
    intro α l k x h
    by_contra hc
    rw [List.getElem?_eq_none (by omega)] at h
    cases h
  have li := lt_of hi
  have lj := lt_of hj
  have lvi := lt_of hvi
  have lvj := lt_of hvj
  have b1 : (VbV.swap oi oj).1.storage = oj.storage := rfl
  have b2 : (VbV.swap oi oj).2.storage = oi.storage := rfl
  constructor
  · intro k
    by_cases hk : k = j
    · subst hk
      left
      exact ⟨_, vi, by rw [List.getElem?_set_self (by simpa using lj)], by rw [List.getElem?_set_self (by simpa using lvj)], r2⟩
    · by_cases hk2 : k = i
      · subst hk2
        left
        refine ⟨_, vj, ?_, ?_, r1⟩
        · show ((w.objs.set k _).set j _)[k]? = _
          rw [List.getElem?_set_ne (Ne.symm hk), List.getElem?_set_self li]
        · rw [List.getElem?_set_ne (Ne.symm hk), List.getElem?_set_self lvi]
      · simp only [List.getElem?_set_ne (Ne.symm hk), List.getElem?_set_ne (Ne.symm hk2)]
        exact H.each k
  · -- position `k` now holds the buffer of position `σ k`
    have key : ∀ (k : Nat) (ok : Obj), ((w.objs.set i (some (VbV.swap oi oj).1)).set j (some (VbV.swap oi oj).2))[k]? = some (some ok) →
        ∃ ok', w.objs[if k = j then i else if k = i then j else k]? = some (some ok') ∧ ok.storage = ok'.storage := by
      intro k ok h
      by_cases hk : k = j
      · subst hk
        rw [List.getElem?_set_self (by simpa using lj)] at h
        cases h
        exact ⟨oi, by simpa using hi, b2⟩
      · rw [List.getElem?_set_ne (Ne.symm hk)] at h
        by_cases hk2 : k = i
        · subst hk2
          rw [List.getElem?_set_self li] at h
          cases h
          exact ⟨oj, by simpa [hk] using hj, b1⟩
        · rw [List.getElem?_set_ne (Ne.symm hk2)] at h
          exact ⟨ok, by simpa [hk, hk2] using h, rfl⟩
    intro k q ok oq hkq hk hq b hb hb'
    obtain ⟨ok', g1, g2⟩ := key k ok hk
    obtain ⟨oq', g3, g4⟩ := key q oq hq
    rw [g2] at hb
    rw [g4] at hb'
    refine H.sep _ _ ok' oq' ?_ g1 g3 b hb hb'
    split <;> split <;> (try split) <;> (try split) <;> omega

theorem valOf_eq {a : Vals B} {i : Nat} {v : Val B} (h : a[i]? = some (some v)) : valOf a i = v := by simp [valOf, h]

theorem obj_eq {w : World B} {i : Nat} {o : Obj} (h : w.objs[i]? = some (some o)) : w.obj i = .ok o := by simp [World.obj, h]

theorem set_self {α : Type} {l : List α} {i : Nat} {x : α} (h : l[i]? = some x) : l.set i x = l := by
  apply List.ext_getElem?
  intro k
  rw [List.getElem?_set]
  split
  · next hk =>
    subst hk
    rw [h]
    have : i < l.length := by
      by_contra hc
      rw [List.getElem?_eq_none (by omega)] at h
      cases h
    simp [this]
  · rfl

/-- One call: it succeeds and has exactly the specified effect on the values of all vectors. -/
theorem Inv.step {w : World B} {a : Vals B} (H : Inv w a) (op : Op B) (hv : op.Valid a) :
    ∃ w', op.run w = .ok w' ∧ w'.z = w.z ∧ Inv w' (op.apply w.z a) := by
  cases op with
  | newEmpty => exact ⟨_, rfl, rfl, H.push (M' := w.mem) (Delta.refl _ _) (ctorEmpty_rep _)⟩
  | newN nb => exact ⟨_, rfl, rfl, H.push (M' := w.mem) (Delta.refl _ _) (ctorN_rep _ nb)⟩
  | newConst nb bs =>
    obtain ⟨h1, h2⟩ := ctorConst_rep w.mem w.z nb bs
    exact ⟨_, rfl, rfl, H.push h2 h1⟩
  | copy i =>
    obtain ⟨v, hv⟩ := hv
    obtain ⟨o, ho, hr⟩ := H.live hv
    obtain ⟨M', o', h1, h2, h3, -⟩ := copyCtor_rep hr
    refine ⟨{ w with mem := M', objs := w.objs ++ [some o'] }, ?_, rfl, ?_⟩
    · simp only [Op.run, obj_eq ho, Res.ok_bind, h1]
    · simp only [Op.apply, valOf_eq hv]
      exact H.push h3 h2
  | move i =>
    obtain ⟨v, hv⟩ := hv
    obtain ⟨o, ho, hr⟩ := H.live hv
    have li : i < w.objs.length := by
      by_contra hc
      rw [List.getElem?_eq_none (by omega)] at ho
      cases ho
    have hlen := H.length
    refine ⟨{ w with objs := w.objs.set i (some (moveCtor o).2) ++ [some (moveCtor o).1] }, ?_, rfl, ?_⟩
    · simp only [Op.run, obj_eq ho, Res.ok_bind]
    · have H1 := H.push (M' := w.mem) (o' := ctorEmpty) (Delta.refl _ _) (ctorEmpty_rep _)
      have H2 := H1.swap (i := i) (j := w.objs.length) (oi := o) (oj := ctorEmpty) (vi := v) (vj := .uninit [])
        (by simpa [List.getElem?_append_left li] using ho) (by simp)
        (by rw [List.getElem?_append_left (by omega)]; exact hv) (by rw [hlen]; simp)
      simp only [Op.apply, valOf_eq hv]
      have e1 : ((w.objs ++ [some ctorEmpty]).set i (some (VbV.swap o ctorEmpty).1)).set w.objs.length (some (VbV.swap o ctorEmpty).2) =
          w.objs.set i (some (moveCtor o).2) ++ [some (moveCtor o).1] := by
        rw [List.set_append_left _ _ li, List.set_append_right _ _ (by simp)]
        simp [moveCtor]
      have e2 : ((a ++ [some (Val.uninit [])]).set i (some (Val.uninit []))).set w.objs.length (some v) = a.set i (some (.uninit [])) ++ [some v] := by
        rw [List.set_append_left _ _ (by omega), List.set_append_right _ _ (by simp; omega)]
        simp [hlen]
      simp only [e1, e2] at H2
      exact H2
  | del i =>
    obtain ⟨v, hv⟩ := hv
    obtain ⟨o, ho, hr⟩ := H.live hv
    obtain ⟨M', h1, h2, h3⟩ := hr.store.free
    refine ⟨{ w with mem := M', objs := w.objs.set i none }, ?_, rfl, H.del ho h3⟩
    simp only [Op.run, obj_eq ho, Res.ok_bind, dtor, h1]
  | assign i j =>
    obtain ⟨⟨v, hv⟩, v', hv'⟩ := hv
    obtain ⟨o, ho, hr⟩ := H.live hv
    obtain ⟨y, hy, hr'⟩ := H.live hv'
    obtain ⟨M', o', h1, h2, h3⟩ := assign_rep hr hr'
    refine ⟨{ w with mem := M', objs := w.objs.set i (some o') }, ?_, rfl, ?_⟩
    · simp only [Op.run, obj_eq ho, obj_eq hy, Res.ok_bind, h1]
    · simp only [Op.apply, valOf_eq hv']
      exact H.set ho h3 h2
  | swap i j =>
    obtain ⟨⟨v, hv⟩, v', hv'⟩ := hv
    obtain ⟨o, ho, hr⟩ := H.live hv
    obtain ⟨y, hy, hr'⟩ := H.live hv'
    refine ⟨{ w with objs := (w.objs.set i (some (VbV.swap o y).1)).set j (some (VbV.swap o y).2) }, by simp only [Op.run, obj_eq ho, obj_eq hy, Res.ok_bind],
      rfl, ?_⟩
    simp only [Op.apply, valOf_eq hv', valOf_eq hv]
    exact H.swap ho hy hv hv'
  | resizeN i nb =>
    obtain ⟨v, hv⟩ := hv
    obtain ⟨o, ho, hr⟩ := H.live hv
    obtain ⟨M', o', h1, h2, h3⟩ := resizeN_rep hr w.z nb
    refine ⟨{ w with mem := M', objs := w.objs.set i (some o') }, ?_, rfl, ?_⟩
    · simp only [Op.run, obj_eq ho, Res.ok_bind, h1]
    · simp only [Op.apply, valOf_eq hv]
      exact H.set ho h3 h2
  | resizeConst i nb bs =>
    obtain ⟨v, hv⟩ := hv
    obtain ⟨o, ho, hr⟩ := H.live hv
    obtain ⟨M', o', h1, h2, h3⟩ := resizeConst_rep hr w.z nb bs
    refine ⟨{ w with mem := M', objs := w.objs.set i (some o') }, ?_, rfl, ?_⟩
    · simp only [Op.run, obj_eq ho, Res.ok_bind, h1]
    · simp only [Op.apply, valOf_eq hv]
      exact H.set ho h3 h2
  | create i sizes =>
    obtain ⟨s, hv, hl, hpos⟩ := hv
    obtain ⟨o, ho, hr⟩ := H.live hv
    obtain ⟨M', o', h1, h2, h3⟩ := create_rep hr w.z sizes hl hpos
    refine ⟨{ w with mem := M', objs := w.objs.set i (some o') }, ?_, rfl, ?_⟩
    · simp only [Op.run, obj_eq ho, Res.ok_bind, h1]
    · simp only [Op.apply, valOf_eq hv]
      exact H.set ho h3 h2
  | write i b k x =>
    obtain ⟨bl, l, hv, hb, hk⟩ := hv
    obtain ⟨o, ho, hr⟩ := H.live hv
    obtain ⟨hb1, hb2⟩ := List.getElem?_eq_some_iff.mp hb
    obtain ⟨M', h1, h2, h3⟩ := writeElem_rep hr b k hb1 (by rw [hb2]; exact hk) x
    refine ⟨{ w with mem := M' }, ?_, rfl, ?_⟩
    · simp only [Op.run, obj_eq ho, Res.ok_bind, h1]
    · simp only [Op.apply, valOf_eq hv]
      have := H.set ho h3 h2
      rw [set_self ho] at this
      exact this
  | flat f i j =>
    obtain ⟨bl, bl', hv, hv', hl⟩ := hv
    obtain ⟨o, ho, hr⟩ := H.live hv
    obtain ⟨y, hy, hr'⟩ := H.live hv'
    obtain ⟨M', h1, h2, h3⟩ := flatOp_rep f hr hr' hl
    refine ⟨{ w with mem := M' }, ?_, rfl, ?_⟩
    · simp only [Op.run, obj_eq ho, obj_eq hy, Res.ok_bind, h1]
    · simp only [Op.apply, valOf_eq hv, valOf_eq hv']
      have := H.set ho h3 h2
      rw [set_self ho] at this
      exact this

theorem Inv.run {w : World B} {a : Vals B} (H : Inv w a) (ops : List (Op B)) (hv : AllValid w.z a ops) :
    ∃ w', ops.foldlM Op.run w = .ok w' ∧ Inv w' (ops.foldl (Op.apply w.z) a) := by
  induction ops generalizing w a with
  | nil => exact ⟨w, rfl, H⟩
  | cons op ops ih =>
    obtain ⟨w1, h1, h2, h3⟩ := H.step op hv.1
    obtain ⟨w', h4, h5⟩ := ih h3 (by rw [h2]; exact hv.2)
    exact ⟨w', by rw [List.foldlM_cons, h1, Res.ok_bind, h4], by rw [h2] at h5; exact h5⟩

theorem Inv.start (z : B) : Inv (⟨[], z, []⟩ : World B) [] := ⟨fun i => .inr (.inr ⟨by simp, by simp⟩), fun i j o o' _ h => by simp at h⟩

/-- For every program that creates, copies, moves, assigns, swaps, resizes, builds, modifies and destroys vectors (each call allowed at its time), no
call fails, and afterwards every vector has exactly the value obtained by treating vectors as independent lists of blocks: the number of blocks and
their sizes are right, reading block `b` gives its elements, and the blocks, one after the other, are the whole storage. In particular a copy is
not affected by later changes of the original and vice versa. -/
theorem C14_blocks (z : B) (ops : List (Op B)) (hv : AllValid z [] ops) :
    ∃ w, ops.foldlM Op.run ⟨[], z, []⟩ = .ok w ∧
      ∀ (i : Nat) (bl : List (List B)), (ops.foldl (Op.apply z) [])[i]? = some (some (.init bl)) →
        ∃ o, w.obj i = .ok o ∧ o.block.length = bl.length ∧ o.block.map Win.sz = bl.map List.length ∧
          (∀ b (hb : b < bl.length), readBlock w.mem o b = .ok bl[b]) ∧
          (∀ b k (hb : b < bl.length) (hk : k < bl[b].length), readElem w.mem o b k = .ok bl[b][k]) ∧ o.n = bl.flatten.length ∧ w.mem.read o.p o.n = .ok bl.flatten := by
  obtain ⟨w, h1, h2⟩ := (Inv.start z).run ops hv
  refine ⟨w, h1, ?_⟩
  intro i bl hi
  obtain ⟨o, ho, hr⟩ := h2.live hi
  refine ⟨o, obj_eq ho, hr.2.2.2.2.1, hr.sizes, fun b hb => readBlock_rep hr b hb, fun b k hb hk => readElem_rep hr b k hb hk, by rw [hr.2.2.2.1, hr.2.1.1], ?_⟩
  have := hr.2.1.read
  rw [vecRead] at this
  rw [hr.2.2.1, hr.2.2.2.1, this]

/-- Different blocks of a vector, and blocks of different vectors, occupy disjoint memory. -/
theorem C14_disjoint (z : B) (ops : List (Op B)) (hv : AllValid z [] ops) (w : World B) (hw : ops.foldlM Op.run ⟨[], z, []⟩ = .ok w)
    (i i' : Nat) (bl bl' : List (List B)) (hi : (ops.foldl (Op.apply z) [])[i]? = some (some (.init bl)))
    (hi' : (ops.foldl (Op.apply z) [])[i']? = some (some (.init bl'))) (o o' : Obj) (ho : w.obj i = .ok o) (ho' : w.obj i' = .ok o')
    (b b' : Nat) (hne : (i, b) ≠ (i', b')) (win win' : Win) (hb : o.block[b]? = some win) (hb' : o'.block[b']? = some win')
    (k k' : Nat) (hk : k < win.sz) (hk' : k' < win'.sz) : padd win.p k ≠ padd win'.p k' ∧ padd win.p k ≠ none := by
  obtain ⟨w2, h1, h2⟩ := (Inv.start z).run ops hv
  rw [hw] at h1; cases h1
  obtain ⟨o1, g1, r⟩ := h2.live hi
  obtain ⟨o2, g2, r'⟩ := h2.live hi'
  rw [obj_eq g1] at ho; cases ho
  rw [obj_eq g2] at ho'; cases ho'
  obtain ⟨hb1, hb2⟩ := List.getElem?_eq_some_iff.mp hb
  obtain ⟨hb1', hb2'⟩ := List.getElem?_eq_some_iff.mp hb'
  obtain ⟨-, s, -, -, W⟩ := r
  obtain ⟨-, s', -, -, W'⟩ := r'
  have hbl : b < bl.length := by rw [← W.1]; exact hb1
  have hbl' : b' < bl'.length := by rw [← W'.1]; exact hb1'
  obtain ⟨e1, e2⟩ := W.2 b hb1 hbl
  obtain ⟨e1', e2'⟩ := W'.2 b' hb1' hbl'
  rw [hb2] at e1 e2
  rw [hb2'] at e1' e2'
  have nb : ∃ c, o.storage.buf = some c := by
    rcases s.2 with ⟨-, h⟩ | ⟨c, h, -⟩
    · rw [Mem.flatten_split bl b hbl] at h
      simp at h
      rw [h.2.1] at e1
      simp at e1
      omega
    · exact ⟨c, h⟩
  have nb' : ∃ c, o'.storage.buf = some c := by
    rcases s'.2 with ⟨-, h⟩ | ⟨c, h, -⟩
    · rw [Mem.flatten_split bl' b' hbl'] at h
      simp at h
      rw [h.2.1] at e1'
      simp at e1'
      omega
    · exact ⟨c, h⟩
  obtain ⟨c, hc⟩ := nb
  obtain ⟨c', hc'⟩ := nb'
  rw [e2 (by omega), e2' (by omega), hc, hc']
  simp only [Option.map_some, padd]
  refine ⟨?_, by simp⟩
  intro h
  simp only [Option.some.injEq, Ptr.mk.injEq] at h
  obtain ⟨hcc, hoff⟩ := h
  have hii : i = i' := by
    by_contra hc2
    exact h2.sep i i' o o' hc2 g1 g2 c hc (by rw [hc', hcc])
  subst hii
  rw [hi] at hi'
  simp only [Option.some.injEq, Val.init.injEq] at hi'
  subst hi'
  have hbb : b ≠ b' := fun h => hne (by rw [h])
  have key : ∀ p q : Nat, p < q → (hq : q < bl.length) → (hp : p < bl.length) → Mem.segOff bl p + bl[p].length ≤ Mem.segOff bl q := by
    intro p q hpq hq hp
    unfold Mem.segOff
    have : bl.take q = bl.take p ++ bl[p] :: (bl.drop (p + 1)).take (q - p - 1) := by
      conv_lhs => rw [← List.take_append_drop p bl]
      rw [List.take_append, List.take_of_length_le (by simp; omega), List.drop_eq_getElem_cons hp]
      congr 1
      have e : q - (bl.take p).length = (q - p - 1) + 1 := by simp; omega
      rw [e, List.take_succ_cons]
    rw [this]
    simp
  rcases Nat.lt_or_gt_of_ne hbb with h | h
  · have := key b b' h hbl' hbl
    omega
  · have := key b' b h hbl hbl'
    omega

/-- Building a vector with no blocks is undefined behaviour: the iterator's destructor dereferences `block[0]`. -/
theorem C14_no_blocks_counterexample (M : Mem B) (z : B) : create M z (ctorN 0) [] = .ub := by
  simp [create, createGo, dtorIter, allocate, vecResize, vecRead, Mem.read, vecMake, Mem.free, sync, ctorN, ctorEmpty, Vec.data]

/-- Blocks of sizes 2, 0, 1; a copy changed after copying; the original assigned from a vector with constant block size. -/
def demoOps : List (Op Int) :=
  [.newN 3, .create 0 [some 2, none, some 1], .write 0 0 1 5, .write 0 2 0 7, .copy 0, .write 1 0 1 9, .newConst 2 2, .flat (· + ·) 0 1, .move 1,
    .assign 2 0, .del 0]

example : AllValid 0 [] demoOps := by
  simp only [demoOps, AllValid, Op.Valid, Op.apply, and_true]
  refine ⟨trivial, ?_, ?_, ?_, ?_, ?_, trivial, ?_, ?_, ?_, ?_⟩
  · exact ⟨[0, 0, 0], rfl, rfl, by decide⟩
  · exact ⟨[[0, 0], [], [0]], [0, 0], rfl, rfl, by decide⟩
  · exact ⟨[[0, 5], [], [0]], [0], rfl, rfl, by decide⟩
  · exact ⟨.init [[0, 5], [], [7]], rfl⟩
  · exact ⟨[[0, 5], [], [7]], [0, 5], rfl, rfl, by decide⟩
  · exact ⟨[[0, 5], [], [7]], [[0, 9], [], [7]], rfl, rfl, rfl⟩
  · exact ⟨.init [[0, 9], [], [7]], rfl⟩
  · exact ⟨⟨.init [[0, 0], [0, 0]], rfl⟩, ⟨.init [[0, 14], [], [14]], rfl⟩⟩
  · exact ⟨.init [[0, 14], [], [14]], rfl⟩

example : (demoOps.foldl (Op.apply 0) [])[2]? = some (some (.init [[0, 14], [], [14]])) := rfl
example : (demoOps.foldl (Op.apply 0) [])[3]? = some (some (.init [[0, 9], [], [7]])) := rfl

end VbV
end Istl
