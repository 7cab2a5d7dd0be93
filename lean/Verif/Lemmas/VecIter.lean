import Verif.Spec.VecIter
import Verif.Lemmas.Iter
import Verif.Lemmas.BlockVec4

/-! Loops over vectors and windows. -/

namespace Istl.BVec
open Istl.Iter (Dir Runs order_get order_length pos_lt)
variable {B τ : Type}

theorem sweep_append (off : Nat) (f : Nat → B → τ → Option B × τ) (a b : List Nat) (st : List B × τ) :
    sweep off f (a ++ b) st = sweep off f b (sweep off f a st) := by
  induction a generalizing st with
  | nil => rfl
  | cons i a ih =>
    obtain ⟨l, s⟩ := st
    simp only [List.cons_append, sweep]
    split
    · exact ih _
    · split <;> exact ih _

theorem sweep_length (off : Nat) (f : Nat → B → τ → Option B × τ) (a : List Nat) (st : List B × τ) :
    (sweep off f a st).1.length = st.1.length := by
  induction a generalizing st with
  | nil => rfl
  | cons i a ih =>
    obtain ⟨l, s⟩ := st
    simp only [sweep]
    split
    · exact ih _
    · split
      · exact ih _
      · rw [ih]; simp

/-- Distance from `p` after `k` steps. -/
def ipos (n : Nat) : Dir → Nat → Int
  | .up, k => k
  | .down, k => (n : Int) - 1 - k

theorem ipos_nat {W n k : Nat} (d : Dir) (hk : k < n) : ipos n d k = (Iter.pos W n d k : Nat) := by
  cases d
  · rfl
  · simp only [ipos, Iter.pos, if_pos hk]; omega

theorem equals_same (p : Option Ptr) (a b : Int) : It.equals ⟨p, a⟩ ⟨p, b⟩ = decide (a = b) := by
  unfold It.equals It.addr
  cases p with
  | none => simp
  | some q => simp

/-- Access through an iterator of the object. -/
theorem covers_access {vini : B} {w : World B} (hw : Reach vini w) {vals : Vals B} (hs : Sees w vals) {x off len : Nat}
    {a : Name} (ha : Covers w vals x off len a) : ∃ p l, base w a = .ok (p, len) ∧ vals x = some l ∧ off + len ≤ l.length ∧
      ∀ i (hi : i < len) (h' : off + i < l.length), It.deref w.mem ⟨p, (i : Nat)⟩ = .ok l[off + i] ∧
        ∀ y, ∃ M, It.write w.mem ⟨p, (i : Nat)⟩ y = .ok M ∧ Reach vini { w with mem := M } ∧
          Sees { w with mem := M } (Function.update vals x (some (l.set (off + i) y))) := by
  have h := hw.rep_of hs
  cases a with
  | vec y =>
    obtain ⟨rfl, rfl, l, hl, rfl⟩ := ha
    obtain ⟨v, hv, hsy, hh⟩ := h.live hl
    have hn : v.n = l.length := by rw [hsy]; exact hh.size
    refine ⟨v.p, l, by simp only [base, hv, hn], hl, by omega, fun i hi h' => ?_⟩
    have hb : ∃ b, v.st.blk = some b := by
      cases hb : v.st.blk with
      | none => rw [(hh.nil hb).1] at hi; simp at hi
      | some b => exact ⟨b, rfl⟩
    obtain ⟨b, hb⟩ := hb
    have hp : v.p = some ⟨b, 0⟩ := by rw [hsy]; simp [sync, Stor.data, hb]
    have hm := hh.get hb
    have hneg : ¬ ((i : Nat) : Int) < 0 := by omega
    refine ⟨?_, fun c => ?_⟩
    · simp only [It.deref, if_neg hneg, Int.toNat_natCast, hp]
      exact load_ok hm h'
    · have hst : store w.mem v.p i c = .ok (w.mem.set b (some (l.set (0 + i) c))) := by
        rw [hp]; exact store_ok hm h' c
      refine ⟨_, by simp only [It.write, if_neg hneg, Int.toNat_natCast]; exact hst, ?_, ?_⟩
      · refine Reach.ok (lk := {}) (lk' := {}) (.put y i c) hw ?_
        simp only [Call.run, put, withVec, hv, onMem, hst]
      · exact Rep.sees (w := { w with mem := _ }) (h.content hv hb hl (by simp))
  | win k =>
    obtain ⟨p, l, h1, h2, h3⟩ := ha.some h
    refine ⟨p, l, by simp only [base, h1], h2, h3, fun i hi h' => ?_⟩
    obtain ⟨v, b, l', e1, e2, e3, e4, e5, e6⟩ := ha.block h (by omega)
    rw [h2] at e3; injection e3 with e3; subst e3
    rw [h1] at e5
    simp only [Option.some.injEq, Window.mk.injEq, and_true] at e5
    subst e5
    have hneg : ¬ ((i : Nat) : Int) < 0 := by omega
    refine ⟨?_, fun c => ?_⟩
    · simp only [It.deref, if_neg hneg, Int.toNat_natCast]
      exact load_ok e4 h'
    · have hst := store_ok e4 h' c
      refine ⟨_, by simp only [It.write, if_neg hneg, Int.toNat_natCast]; exact hst, ?_, ?_⟩
      · refine Reach.wok (lk := {}) (.put k i c) hw ?_
        simp only [WCall.run, winPut, withWin, h1, onMem, hst]
      · exact Rep.sees (w := { w with mem := _ }) (h.content e1 e2 h2 (by simp))

theorem Covers.write {w : World B} {vals : Vals B} {x off len : Nat} {a : Name} (ha : Covers w vals x off len a) {M : Mem B}
    {l l' : List B} (hl : vals x = some l) (hlen : l'.length = l.length) :
    Covers { w with mem := M } (Function.update vals x (some l')) x off len a := by
  cases a with
  | vec y =>
    obtain ⟨h1, h2, k, h3, h4⟩ := ha
    rw [hl] at h3; cases h3
    exact ⟨h1, h2, l', by simp, by rw [h4, hlen]⟩
  | win k => exact ha

/-- The loop from a given position on. -/
theorem passFrom {vini : B} {w : World B} (hw : Reach vini w) {vals : Vals B} (hs : Sees w vals) {x off len : Nat} {a : Name}
    (ha : Covers w vals x off len a) {l : List B} (hl : vals x = some l) {W : Nat} (hW : len ≤ W) (d : Dir)
    (f : Nat → B → τ → Option B × τ) {p : Option Ptr} (hp : base w a = .ok (p, len)) {k0 : Nat} (hk0 : k0 ≤ len) (s : τ) :
    ∃ w', Reach vini w' ∧ w'.vec = w.vec ∧ w'.win = w.win ∧
      Sees w' (Function.update vals x (some (sweep off f ((d.order (List.range len)).drop k0) (l, s)).1)) ∧
      ∀ r, PassFrom W d a f ⟨p, ipos len d k0⟩ (w, s) r ↔
        r = .ok (w', (sweep off f ((d.order (List.range len)).drop k0) (l, s)).2) := by
  let acc : Nat → List B × τ := fun k => sweep off f (((d.order (List.range len)).take k).drop k0) (l, s)
  let P : Nat → World B × τ → Prop := fun k st => Reach vini st.1 ∧ st.1.vec = w.vec ∧ st.1.win = w.win ∧
    Sees st.1 (Function.update vals x (some (acc k).1)) ∧ Covers st.1 (Function.update vals x (some (acc k).1)) x off len a ∧
    st.2 = (acc k).2
  have hacc0 : acc k0 = (l, s) := by
    simp only [acc]
    rw [List.drop_eq_nil_of_le (by simp)]
    rfl
  have hbase : ∀ w' : World B, w'.vec = w.vec → w'.win = w.win → base w' a = .ok (p, len) := by
    intro w' h1 h2
    rw [← hp]
    cases a <;> simp only [base, h1, h2]
  have hself : Function.update vals x (some l) = vals := by rw [← hl]; exact Function.update_eq_self ..
  have hP0 : P k0 (w, s) := by
    refine ⟨hw, rfl, rfl, ?_, ?_, by rw [hacc0]⟩
    · rw [hacc0, hself]; exact hs
    · rw [hacc0, hself]; exact ha
  obtain ⟨st', ⟨g1, g2, g3, g4, -, g5⟩, hr⟩ := Runs.count (ne := fun it (st : World B × τ) => do
      let q ← base st.1 a
      .ok (!(it.equals (itStop q d)))) (next := itNext d) (body := fun it st r => r = itBody W f it st) P
    (len - k0) (fun k => ⟨p, ipos len d k⟩) k0
    (fun k hk => by
      cases d
      · simp [itNext, It.increment, ipos]
      · simp only [itNext, It.decrement, ipos, It.mk.injEq, true_and]; push_cast; omega)
    (fun k st hk hq => by
      obtain ⟨q1, q2, q3, -⟩ := hq
      simp only [hbase st.1 q2 q3, Res.ok_bind]
      congr 1
      cases d
      · simp only [itStop, itEnd, equals_same, ipos]
        rw [← decide_not]
        exact decide_eq_decide.mpr (by push_cast; omega)
      · simp only [itStop, itBeforeBegin, equals_same, ipos]
        rw [← decide_not]
        exact decide_eq_decide.mpr (by push_cast; omega))
    (fun k st hk hq => by
      obtain ⟨q1, q2, q3, q4, q5, q6⟩ := hq
      have hkl : k0 + k < len := by omega
      have hko : k0 + k < (d.order (List.range len)).length := by rw [order_length]; simpa using hkl
      have hpos : Iter.pos W len d (k0 + k) < len := pos_lt hkl
      have hget : (d.order (List.range len))[k0 + k] = Iter.pos W len d (k0 + k) := by
        have := order_get d W (List.range len) (k := k0 + k) (by simpa using hkl)
        rw [List.getElem?_eq_getElem hko, List.length_range, List.getElem?_eq_getElem (by simpa using hpos)] at this
        simpa using this
      have hacc : acc (k0 + k + 1) = sweep off f [Iter.pos W len d (k0 + k)] (acc (k0 + k)) := by
        simp only [acc]
        rw [Iter.drop_take_succ _ (by omega) hko, hget, sweep_append]
      obtain ⟨p', l', b1, b2, b3, b4⟩ := covers_access q1 q4 q5
      rw [hbase st.1 q2 q3] at b1
      simp only [Res.ok.injEq, Prod.mk.injEq, and_true] at b1
      subst b1
      rw [Function.update_self] at b2
      injection b2 with b2
      have hi' : off + Iter.pos W len d (k0 + k) < l'.length := by omega
      obtain ⟨c1, c2⟩ := b4 _ hpos hi'
      have hidx : It.index W ⟨p, ((Iter.pos W len d (k0 + k) : Nat) : Int)⟩ = Iter.pos W len d (k0 + k) := by
        simp only [It.index]
        rw [Int.emod_eq_of_lt (by omega) (by omega), Int.toNat_natCast]
      have hidle : (acc (k0 + k)) = (l', st.2) := Prod.ext b2 q6.symm
      rw [ipos_nat (W := W) d hkl]
      simp only [itBody, c1, Res.ok_bind, hidx]
      rcases hf : f (Iter.pos W len d (k0 + k)) l'[off + Iter.pos W len d (k0 + k)] st.2 with ⟨_ | y, s1⟩
      · have e : acc (k0 + k + 1) = (l', s1) := by
          rw [hacc, hidle]
          simp only [sweep, List.getElem?_eq_getElem hi', hf]
        refine ⟨(st.1, s1), fun r => Iff.rfl, q1, q2, q3, ?_, ?_, ?_⟩
        · rw [e]; rw [b2] at q4; exact q4
        · rw [e]; rw [b2] at q5; exact q5
        · rw [e]
      · obtain ⟨M, c3, c4, c5⟩ := c2 y
        have e : acc (k0 + k + 1) = (l'.set (off + Iter.pos W len d (k0 + k)) y, s1) := by
          rw [hacc, hidle]
          simp only [sweep, List.getElem?_eq_getElem hi', hf]
        rw [Function.update_idem] at c5
        refine ⟨({ st.1 with mem := M }, s1), fun r => ?_, c4, q2, q3, ?_, ?_, ?_⟩
        · simp only [c3, Res.ok_bind]
        · rw [e]; exact c5
        · rw [e]
          have := q5.write (M := M) (l := (acc (k0 + k)).1) (l' := l'.set (off + Iter.pos W len d (k0 + k)) y)
            (by simp) (by rw [b2]; simp)
          rwa [Function.update_idem] at this
        · rw [e])
    (w, s) hP0
  have hfull : acc (k0 + (len - k0)) = sweep off f ((d.order (List.range len)).drop k0) (l, s) := by
    simp only [acc]
    rw [List.take_of_length_le (by rw [order_length]; simp; omega)]
  rw [hfull] at g4 g5
  refine ⟨st'.1, g1, g2, g3, g4, fun r => ?_⟩
  rw [← g5]
  exact hr r

end Istl.BVec
