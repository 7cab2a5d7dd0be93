import Verif.Lemmas.BcrsMake

/-! The invariant of programs over several matrices. -/

namespace Istl
namespace BcrsWorld
open Bcrs
variable {B : Type}

/-- Every variable stands for its value; data arrays are not shared, per-row index arrays neither. -/
structure Inv (z : B) (w : World B) (s : State B) : Prop where
  zd : w.h.dflt = z
  zv : w.h.vini = z
  len : w.objs.length = s.length
  rep : ∀ (i : Nat) (v : Val B), s[i]? = some (some v) → ∃ o, w.objs[i]? = some (some o) ∧ Rep w.h o v
  dom : ∀ (i : Nat) (o : Obj B), w.objs[i]? = some (some o) → ∃ v, s[i]? = some (some v)
  sepA : ∀ (i k : Nat) (oi ok : Obj B) (b : Nat), w.objs[i]? = some (some oi) → w.objs[k]? = some (some ok) → i ≠ k →
    OwnA oi b → ¬ OwnA ok b
  sepJ : ∀ (i k : Nat) (oi ok : Obj B) (b : Nat), w.objs[i]? = some (some oi) → w.objs[k]? = some (some ok) → i ≠ k →
    OwnJ oi b → ¬ UseJ ok b

theorem Inv.repOf {z : B} {w : World B} {s : State B} (I : Inv z w s) {i : Nat} {o : Obj B} (ho : w.objs[i]? = some (some o)) :
    ∃ v, s[i]? = some (some v) ∧ Rep w.h o v := by
  obtain ⟨v, hv⟩ := I.dom i o ho
  obtain ⟨o', h1, h2⟩ := I.rep i v hv
  rw [ho] at h1
  simp only [Option.some.injEq] at h1
  subst h1
  exact ⟨v, hv, h2⟩

theorem get_iff {s : State B} {i : Nat} {v : Val B} : s.get i = some v ↔ s[i]? = some (some v) := by
  unfold State.get
  cases s[i]? with
  | none => simp
  | some x => simp

theorem upd_eq (s : State B) {i : Nat} {v : Val B} (h : s[i]? = some (some v)) (f : Val B → Val B) :
    s.upd i f = s.set i (some (f v)) := by
  unfold State.upd
  obtain ⟨hi, he⟩ := List.getElem?_eq_some_iff.mp h
  apply List.ext_getElem (by simp)
  intro t a b
  rw [List.getElem_modify, List.getElem_set]
  split
  · rename_i ht; subst ht; rw [he]; rfl
  · rfl

/-- Variable `i` gets new contents. -/
theorem Inv.replace {z : B} {w : World B} {s : State B} (I : Inv z w s) {i : Nat} {o : Obj B} {v : Val B}
    (ho : w.objs[i]? = some (some o)) {h' : Heap B} {o' : Obj B} (hrep : Rep h' o' v) (hc : SameC w.h h')
    (fa : ∀ (b : Nat), b < w.h.as.length → ¬ OwnA o b → h'.as[b]? = w.h.as[b]?)
    (fj : ∀ (b : Nat), b < w.h.js.length → ¬ OwnJ o b → h'.js[b]? = w.h.js[b]?)
    (oa : ∀ b, OwnA o' b → OwnA o b ∨ w.h.as.length ≤ b)
    (oj : ∀ b, OwnJ o' b → OwnJ o b ∨ w.h.js.length ≤ b)
    (uj : ∀ b, UseJ o' b → UseJ o b ∨ w.h.js.length ≤ b ∨ ∃ k ok, k ≠ i ∧ w.objs[k]? = some (some ok) ∧ ok.jarr = some b) :
    Inv z ⟨h', w.objs.set i (some o')⟩ (s.set i (some v)) := by
  have hi : i < w.objs.length := (List.getElem?_eq_some_iff.mp ho).1
  have hi' : i < s.length := by rw [← I.len]; exact hi
  have hget : ∀ (k : Nat) (ok : Obj B), (w.objs.set i (some o'))[k]? = some (some ok) →
      (i = k ∧ ok = o') ∨ (i ≠ k ∧ w.objs[k]? = some (some ok)) := by
    intro k ok hk
    by_cases hik : i = k
    · subst hik
      rw [List.getElem?_set_self hi] at hk
      simp only [Option.some.injEq] at hk
      exact .inl ⟨rfl, hk.symm⟩
    · rw [List.getElem?_set_ne hik] at hk
      exact .inr ⟨hik, hk⟩
  refine ⟨by rw [hc.1]; exact I.zd, by rw [hc.2.1]; exact I.zv, by simp [I.len], ?_, ?_, ?_, ?_⟩
  · intro k u hu
    dsimp only
    by_cases hk : i = k
    · subst hk
      simp only [List.getElem?_set_self hi', Option.some.injEq] at hu
      subst hu
      exact ⟨o', by simp [hi], hrep⟩
    · rw [List.getElem?_set_ne hk] at hu ⊢
      obtain ⟨ok, h1, h2⟩ := I.rep k u hu
      refine ⟨ok, h1, h2.frame ?_ ?_⟩
      · intro b hb
        exact fa b (h2.liveA hb) fun h => I.sepA i k o ok b ho h1 hk h hb
      · intro b hb
        exact fj b (h2.liveJ hb) fun h => I.sepJ i k o ok b ho h1 hk h hb
  · intro k ok hk
    rcases hget k ok hk with ⟨rfl, -⟩ | ⟨hne, hk'⟩
    · exact ⟨v, by simp [hi']⟩
    · rw [List.getElem?_set_ne hne]
      exact I.dom k ok hk'
  · have key : ∀ (k : Nat) (ok : Obj B) (b : Nat), w.objs[k]? = some (some ok) → i ≠ k → OwnA o' b → OwnA ok b → False := by
      intro k ok b hk hne h1 h2
      obtain ⟨u, -, hu⟩ := I.repOf hk
      rcases oa b h1 with h | h
      · exact I.sepA i k o ok b ho hk hne h h2
      · have := hu.liveA h2; omega
    intro a c oa' oc b ha hc' hac h1 h2
    rcases hget a oa' ha with ⟨rfl, rfl⟩ | ⟨hne, ha'⟩ <;> rcases hget c oc hc' with ⟨rfl, rfl⟩ | ⟨hne', hc''⟩
    · exact hac rfl
    · exact key c oc b hc'' hne' h1 h2
    · exact key a oa' b ha' hne h2 h1
    · exact I.sepA a c oa' oc b ha' hc'' hac h1 h2
  · intro a c oa' oc b ha hc' hac h1 h2
    rcases hget a oa' ha with ⟨rfl, rfl⟩ | ⟨hne, ha'⟩ <;> rcases hget c oc hc' with ⟨rfl, rfl⟩ | ⟨hne', hc''⟩
    · exact hac rfl
    · obtain ⟨u, -, hu⟩ := I.repOf hc''
      rcases oj b h1 with h | h
      · exact I.sepJ i c o oc b ho hc'' hne' h h2
      · have := hu.liveJ h2; omega
    · obtain ⟨u, -, hu⟩ := I.repOf ha'
      rcases uj b h2 with h | h | ⟨k, ok, hk1, hk2, hk3⟩
      · exact I.sepJ a i oa' o b ha' ho (Ne.symm hne) h1 h
      · have := hu.liveJ h1.2; omega
      · by_cases hka : a = k
        · subst hka
          rw [ha'] at hk2
          simp only [Option.some.injEq] at hk2
          subst hk2
          rw [h1.1] at hk3; cases hk3
        · exact I.sepJ a k oa' ok b ha' hk2 hka h1 (.inl hk3)
    · exact I.sepJ a c oa' oc b ha' hc'' hac h1 h2

/-- A new variable. -/
theorem Inv.push {z : B} {w : World B} {s : State B} (I : Inv z w s) {h' : Heap B} {o' : Obj B} {v : Val B} (hrep : Rep h' o' v)
    (hc : SameC w.h h')
    (fa : ∀ (b : Nat), b < w.h.as.length → h'.as[b]? = w.h.as[b]?)
    (fj : ∀ (b : Nat), b < w.h.js.length → h'.js[b]? = w.h.js[b]?)
    (oa : ∀ b, OwnA o' b → w.h.as.length ≤ b)
    (oj : ∀ b, OwnJ o' b → w.h.js.length ≤ b)
    (uj : ∀ b, UseJ o' b → w.h.js.length ≤ b ∨ ∃ (k : Nat) (ok : Obj B), w.objs[k]? = some (some ok) ∧ ok.jarr = some b) :
    Inv z ⟨h', w.objs ++ [some o']⟩ (s ++ [some v]) := by
  have hget : ∀ (k : Nat) (ok : Obj B), (w.objs ++ [some o'])[k]? = some (some ok) →
      (k = w.objs.length ∧ ok = o') ∨ (k < w.objs.length ∧ w.objs[k]? = some (some ok)) := by
    intro k ok hk
    have hlt := (List.getElem?_eq_some_iff.mp hk).1
    simp only [List.length_append, List.length_singleton] at hlt
    by_cases h : k < w.objs.length
    · rw [List.getElem?_append_left h] at hk
      exact .inr ⟨h, hk⟩
    · have : k = w.objs.length := by omega
      subst this
      simp only [List.getElem?_concat_length, Option.some.injEq] at hk
      exact .inl ⟨rfl, hk.symm⟩
  refine ⟨by rw [hc.1]; exact I.zd, by rw [hc.2.1]; exact I.zv, by simp [I.len], ?_, ?_, ?_, ?_⟩
  · intro k u hu
    have hlt := (List.getElem?_eq_some_iff.mp hu).1
    simp only [List.length_append, List.length_singleton] at hlt
    dsimp only
    by_cases h : k < s.length
    · rw [List.getElem?_append_left h] at hu
      obtain ⟨ok, h1, h2⟩ := I.rep k u hu
      refine ⟨ok, by rw [List.getElem?_append_left (by rw [I.len]; exact h), h1], h2.frame ?_ ?_⟩
      · intro b hb; exact fa b (h2.liveA hb)
      · intro b hb; exact fj b (h2.liveJ hb)
    · have hk : k = s.length := by omega
      subst hk
      simp only [List.getElem?_concat_length, Option.some.injEq] at hu
      subst hu
      refine ⟨o', ?_, hrep⟩
      rw [← I.len]; simp
  · intro k ok hk
    rcases hget k ok hk with ⟨rfl, rfl⟩ | ⟨hlt, hk'⟩
    · refine ⟨v, ?_⟩
      rw [I.len]; simp
    · obtain ⟨u, hu⟩ := I.dom k ok hk'
      exact ⟨u, by rw [List.getElem?_append_left (by rw [← I.len]; exact hlt), hu]⟩
  · have key : ∀ (k : Nat) (ok : Obj B) (b : Nat), w.objs[k]? = some (some ok) → OwnA o' b → OwnA ok b → False := by
      intro k ok b hk h1 h2
      obtain ⟨u, -, hu⟩ := I.repOf hk
      have := hu.liveA h2
      have := oa b h1
      omega
    intro a c oa' oc b ha hc' hac h1 h2
    rcases hget a oa' ha with ⟨rfl, rfl⟩ | ⟨hne, ha'⟩ <;> rcases hget c oc hc' with ⟨rfl, rfl⟩ | ⟨hne', hc''⟩
    · exact hac rfl
    · exact key c oc b hc'' h1 h2
    · exact key a oa' b ha' h2 h1
    · exact I.sepA a c oa' oc b ha' hc'' hac h1 h2
  · intro a c oa' oc b ha hc' hac h1 h2
    rcases hget a oa' ha with ⟨rfl, rfl⟩ | ⟨hne, ha'⟩ <;> rcases hget c oc hc' with ⟨rfl, rfl⟩ | ⟨hne', hc''⟩
    · exact hac rfl
    · obtain ⟨u, -, hu⟩ := I.repOf hc''
      have := hu.liveJ h2
      have := oj b h1
      omega
    · obtain ⟨u, -, hu⟩ := I.repOf ha'
      rcases uj b h2 with h | ⟨k, ok, hk2, hk3⟩
      · have := hu.liveJ h1.2; omega
      · by_cases hka : a = k
        · subst hka
          rw [ha'] at hk2
          simp only [Option.some.injEq] at hk2
          subst hk2
          rw [h1.1] at hk3; cases hk3
        · exact I.sepJ a k oa' ok b ha' hk2 hka h1 (.inl hk3)
    · exact I.sepJ a c oa' oc b ha' hc'' hac h1 h2

/-- A variable is destroyed. -/
theorem Inv.drop {z : B} {w : World B} {s : State B} (I : Inv z w s) {i : Nat} {o : Obj B}
    (ho : w.objs[i]? = some (some o)) {h' : Heap B} (hc : SameC w.h h')
    (fa : ∀ (b : Nat), ¬ OwnA o b → h'.as[b]? = w.h.as[b]?)
    (fj : ∀ (b : Nat), ¬ OwnJ o b → h'.js[b]? = w.h.js[b]?) :
    Inv z ⟨h', w.objs.set i none⟩ (s.set i none) := by
  have hi : i < w.objs.length := (List.getElem?_eq_some_iff.mp ho).1
  have hi' : i < s.length := by rw [← I.len]; exact hi
  have hget : ∀ (k : Nat) (ok : Obj B), (w.objs.set i none)[k]? = some (some ok) → i ≠ k ∧ w.objs[k]? = some (some ok) := by
    intro k ok hk
    by_cases hik : i = k
    · subst hik
      rw [List.getElem?_set_self hi] at hk
      simp at hk
    · rw [List.getElem?_set_ne hik] at hk
      exact ⟨hik, hk⟩
  refine ⟨by rw [hc.1]; exact I.zd, by rw [hc.2.1]; exact I.zv, by simp [I.len], ?_, ?_, ?_, ?_⟩
  · intro k u hu
    dsimp only
    by_cases hk : i = k
    · subst hk
      simp [List.getElem?_set_self hi'] at hu
    · rw [List.getElem?_set_ne hk] at hu ⊢
      obtain ⟨ok, h1, h2⟩ := I.rep k u hu
      refine ⟨ok, h1, h2.frame ?_ ?_⟩
      · intro b hb
        exact fa b fun h => I.sepA i k o ok b ho h1 hk h hb
      · intro b hb
        exact fj b fun h => I.sepJ i k o ok b ho h1 hk h hb
  · intro k ok hk
    obtain ⟨hne, hk'⟩ := hget k ok hk
    rw [List.getElem?_set_ne hne]
    exact I.dom k ok hk'
  · intro a c oa' oc b ha hc' hac h1 h2
    exact I.sepA a c oa' oc b (hget a oa' ha).2 (hget c oc hc').2 hac h1 h2
  · intro a c oa' oc b ha hc' hac h1 h2
    exact I.sepJ a c oa' oc b (hget a oa' ha).2 (hget c oc hc').2 hac h1 h2

/-- A building program creates a variable. -/
theorem Inv.make {z : B} {w : World B} {s : State B} (I : Inv z w s) {c : BC B Unit} {v : Val B}
    (hc : ∃ s', c ⟨w.h, Bcrs.empty .unknown⟩ = .ok () s' ∧ Good w.h s' ∧ Rep s'.h s'.o v) :
    ∃ w', create w c = .ok w' ∧ Inv z w' (s ++ [some v]) := by
  obtain ⟨s', h1, G, R⟩ := hc
  refine ⟨⟨s'.h, w.objs ++ [some s'.o]⟩, by simp [create, call, h1], ?_⟩
  exact I.push R ⟨G.dflt, G.vini, G.junk⟩ G.fa G.fj (fun b hb => Good.ownA G hb) (fun b hb => Good.useJ G hb.2)
    fun b hb => .inl (Good.useJ G hb)

theorem obj_ok {w : World B} {i : Nat} {o : Obj B} (h : w.objs[i]? = some (some o)) : obj w i = .ok o := by
  simp [obj, h]

/-- A value update. -/
theorem Inv.update {z : B} {w : World B} {s : State B} (I : Inv z w s) {i : Nat} {v v' : Val B} (hv : s[i]? = some (some v))
    {c : BC B Unit} (hc : ∀ o, Rep w.h o v → ∃ as, c ⟨w.h, o⟩ = .ok () ⟨{ w.h with as := as }, o⟩ ∧
      Rep { w.h with as := as } o v' ∧ as.length = w.h.as.length ∧ ∀ (b : Nat), ¬ OwnA o b → as[b]? = w.h.as[b]?) :
    ∃ w', on w i c = .ok w' ∧ Inv z w' (s.set i (some v')) := by
  obtain ⟨o, ho, R⟩ := I.rep i v hv
  obtain ⟨as, h1, h2, h3, h4⟩ := hc o R
  refine ⟨⟨{ w.h with as := as }, w.objs.set i (some o)⟩, by simp [on, obj_ok ho, call, h1], ?_⟩
  exact I.replace ho h2 ⟨rfl, rfl, rfl⟩ (fun b _ hb => h4 b hb) (fun _ _ _ => rfl) (fun b h => .inl h) (fun b h => .inl h) fun b h => .inl h

/-- Counting the entries of a variable. -/
theorem Inv.count {z : B} {w : World B} {s : State B} (I : Inv z w s) {i : Nat} {v : Val B} (hv : s[i]? = some (some v)) {o : Obj B}
    (ho : w.objs[i]? = some (some o)) (R : Rep w.h o v) :
    Inv z { w with objs := w.objs.set i (some (counted o).2) } (s.set i (some { v with counted := true })) :=
  I.replace ho R.count.1 ⟨rfl, rfl, rfl⟩ (fun _ _ _ => rfl) (fun _ _ _ => rfl) (fun b h => .inl h) (fun b h => .inl h) fun b h => .inl h

theorem Rep.ready {h : Heap B} {o : Obj B} {v : Val B} (R : Rep h o v) : o.ready = .notAllocated ∨ o.ready = .built := by
  rcases R.alt with ⟨rj, rv, ws, P⟩ | ⟨ws, L⟩
  · exact P.rdy
  · exact .inr L.P.ready

/-- Every allowed statement succeeds and does to the values what it means. -/
theorem step_inv {z : B} {w : World B} {s : State B} (I : Inv z w s) (op : Op B) (hv : Valid s op) :
    ∃ w', step w op = .ok w' ∧ Inv z w' (apply z s op) := by
  have hzd := I.zd
  have hzv := I.zv
  cases op with
  | new mode =>
    refine ⟨_, rfl, I.push (h' := w.h) ?_ ⟨rfl, rfl, rfl⟩ (fun _ _ => rfl) (fun _ _ => rfl) ?_ ?_ ?_⟩
    · refine ⟨rfl, rfl, by simp, .inl ⟨[], [], [], ?_⟩⟩
      refine ⟨⟨rfl, ⟨rfl, rfl⟩, rfl, rfl, rfl, ?_, ?_, ?_, ?_⟩, .inl rfl, by simp [Val.total], by simp [Bcrs.empty], fun _ => rfl⟩
      · intro i h1; simp [Val.cs] at h1
      · intro i h1; simp at h1
      · simp [Bcrs.empty, Mem.Holds, Val.cs]
      · simp [Bcrs.empty, Mem.Holds, Val.vs]
    · intro b hb
      rcases hb with hb | ⟨w, hw, -⟩
      · simp [Bcrs.empty] at hb
      · simp [Bcrs.empty] at hw
    · intro b hb
      rcases hb.2 with hb | ⟨w, hw, -⟩
      · simp [Bcrs.empty] at hb
      · simp [Bcrs.empty] at hw
    · intro b hb
      rcases hb with hb | ⟨w, hw, -⟩
      · simp [Bcrs.empty] at hb
      · simp [Bcrs.empty] at hw
  | random n m nnz sizes calls =>
    obtain ⟨v1, v2, v3, v4⟩ := hv
    have := make_random w.h (Bcrs.empty .unknown) n m nnz sizes calls v1 v2 v3 v4
    rw [hzd] at this
    exact I.make this
  | rowWise n m nnz bm todo =>
    obtain ⟨v1, v2, v3⟩ := hv
    have := make_rowWise w.h (Bcrs.empty .unknown) n m nnz bm v1 todo v2 v3
    rw [hzd] at this
    exact I.make this
  | implicit n m avg cbs acc =>
    obtain ⟨v1, v2, v3, v4⟩ := hv
    have := make_implicit w.h (Bcrs.empty .unknown) n m avg cbs v1 v2 acc v3 (by rw [hzd, hzv]) v4
    rw [hzv] at this
    exact I.make this
  | copy j =>
    obtain ⟨v, hv⟩ := hv
    have hg := hv
    rw [get_iff] at hv
    obtain ⟨src, ho, R⟩ := I.rep j v hv
    have I1 := I.count hv ho R
    obtain ⟨R1, c1, c2⟩ := R.count
    set src' := (counted src).2 with hsrc
    obtain ⟨h', o', e1, R2, sc, fa, fj, la, lj, oa, uj, oj, -⟩ := R1.copy
      { (Bcrs.empty src'.mode src'.avg src'.cbs : Obj B) with jarr := src'.jarr } (counted src).1 true
      c1 rfl rfl rfl
    have hj : (w.objs.set j (some src'))[j]? = some (some src') := by
      simp [(List.getElem?_eq_some_iff.mp ho).1]
    have hcall : copyCtor src' (counted src).1 ⟨w.h, Bcrs.empty .unknown⟩ = .ok () ⟨h', o'⟩ := by
      unfold copyCtor
      rw [Cmd.bind_ok (show (setO _ : BC B Unit) ⟨w.h, _⟩ = .ok () ⟨w.h, Bcrs.empty src'.mode src'.avg src'.cbs⟩ from rfl)]
      rw [if_neg (not_not.mpr R1.ready)]
      rw [Cmd.bind_ok (show (setO _ : BC B Unit) ⟨w.h, _⟩ = .ok () ⟨w.h, { (Bcrs.empty src'.mode src'.avg src'.cbs : Obj B) with jarr := src'.jarr }⟩ from rfl)]
      exact e1
    refine ⟨⟨h', w.objs.set j (some src') ++ [some o']⟩, ?_, ?_⟩
    · simp only [step, obj_ok ho, Res.ok_bind, create, call, ← hsrc, hcall]
    · have hap : BcrsWorld.apply z s (.copy j) = s.set j (some { v with counted := true }) ++
          [some { v with lazy := false, counted := true }] := by
        simp only [BcrsWorld.apply, hg, Option.map_some, upd_eq s hv]
      rw [hap]
      exact I1.push R2 sc fa fj oa (fun b hb => absurd hb (oj b)) fun b hb => by
        rcases uj b hb with h | h
        · exact .inr ⟨j, src', hj, h⟩
        · exact .inl h
  | assign i j =>
    obtain ⟨⟨u, hu⟩, v, hv⟩ := hv
    have hg := hv
    rw [get_iff] at hv hu
    by_cases hij : i = j
    · refine ⟨w, by simp [step, hij], ?_⟩
      simpa [BcrsWorld.apply, hij] using I
    obtain ⟨src, ho, R⟩ := I.rep j v hv
    have I1 := I.count hv ho R
    obtain ⟨R1, c1, c2⟩ := R.count
    set src' := (counted src).2 with hsrc
    obtain ⟨dst, hd, Rd⟩ := I.rep i u hu
    have hd' : (w.objs.set j (some src'))[i]? = some (some dst) := by rw [List.getElem?_set_ne (Ne.symm hij), hd]
    have hj : (w.objs.set j (some src'))[j]? = some (some src') := by
      simp [(List.getElem?_eq_some_iff.mp ho).1]
    obtain ⟨h1, o1, e1, lj1, la1, sc1, fj1, fa1, o1a, o1n, o1f, o1t, o1r⟩ := Rd.dealloc (decide (dst.n ≠ src'.n))
    have Rs : Rep h1 src' { v with counted := true } := R1.frame
      (fun b hb => fa1 b fun h => I1.sepA i j dst src' b hd' hj hij h hb)
      (fun b hb => fj1 b fun h => I1.sepJ i j dst src' b hd' hj hij h hb)
    obtain ⟨h', o', e2, R2, sc, fa, fj, la, lj, oa, uj, oj, -⟩ := Rs.copy
      { o1 with nnz := (counted src).1, jarr := src'.jarr } (counted src).1 (decide (dst.n ≠ src'.n))
      c1 o1a rfl (by
        by_cases hn : dst.n = src'.n
        · simp only [hn, ne_eq, not_true, decide_false, Bool.false_eq_true, if_false]
          have := o1f (by simp [hn])
          rw [hn] at this
          exact this
        · simp only [ne_eq, hn, not_false_eq_true, decide_true, if_true]
          exact o1t (by simp [hn]))
    have hcall : Bcrs.assign src' (counted src).1 ⟨w.h, dst⟩ = .ok () ⟨h', o'⟩ := by
      unfold Bcrs.assign
      rw [Cmd.bind_ok (Cmd.get_apply _), if_neg (not_not.mpr ⟨Rd.ready, R1.ready⟩)]
      dsimp only
      rw [Cmd.bind_ok e1]
      rw [Cmd.bind_ok (show (setO _ : BC B Unit) ⟨h1, o1⟩ = .ok () ⟨h1, { o1 with nnz := (counted src).1, jarr := src'.jarr }⟩ from rfl)]
      exact e2
    refine ⟨⟨h', (w.objs.set j (some src')).set i (some o')⟩, ?_, ?_⟩
    · simp only [step, if_neg hij, obj_ok ho, Res.ok_bind, ← hsrc]
      simp only [on, obj_ok (w := ⟨w.h, w.objs.set j (some src')⟩) hd', Res.ok_bind, call, hcall]
    · have hu' : (s.set j (some { v with counted := true }))[i]? = some (some u) := by
        rw [List.getElem?_set_ne (Ne.symm hij), hu]
      have hap : BcrsWorld.apply z s (.assign i j) = (s.set j (some { v with counted := true })).set i
          (some { v with lazy := false, counted := true }) := by
        simp only [BcrsWorld.apply, if_neg hij, hg, upd_eq s hv, upd_eq _ hu']
      rw [hap]
      refine I1.replace hd' R2 ⟨by rw [sc.1, sc1.1], by rw [sc.2.1, sc1.2.1], by rw [sc.2.2, sc1.2.2]⟩ ?_ ?_ ?_ ?_ ?_
      · intro b hb hno
        rw [fa b (by rw [la1]; exact hb), fa1 b hno]
      · intro b hb hno
        rw [fj b (by rw [lj1]; exact hb), fj1 b hno]
      · intro b hb
        right
        rw [← la1]; exact oa b hb
      · intro b hb; exact absurd hb (oj b)
      · intro b hb
        rcases uj b hb with h | h
        · exact .inr (.inr ⟨j, src', Ne.symm hij, hj, h⟩)
        · right; left; rw [← lj1]; exact h
  | modify i r c f =>
    obtain ⟨v, hv, row, h1, h2⟩ := hv
    rw [get_iff] at hv
    simp only [step, BcrsWorld.apply, upd_eq s hv]
    exact I.update hv fun o R => R.modify f h1 h2
  | scale i f =>
    obtain ⟨v, hv, h1⟩ := hv
    rw [get_iff] at hv
    simp only [step, BcrsWorld.apply, upd_eq s hv]
    exact I.update hv fun o R => R.scale f h1
  | fill i k =>
    obtain ⟨v, hv⟩ := hv
    rw [get_iff] at hv
    simp only [step, BcrsWorld.apply, upd_eq s hv]
    exact I.update hv fun o R => R.fill k
  | count i =>
    obtain ⟨v, hv⟩ := hv
    rw [get_iff] at hv
    obtain ⟨o, ho, R⟩ := I.rep i v hv
    refine ⟨{ w with objs := w.objs.set i (some (counted o).2) }, by simp only [step, obj_ok ho, Res.ok_bind], ?_⟩
    simp only [BcrsWorld.apply, upd_eq s hv]
    exact I.count hv ho R
  | destroy i =>
    obtain ⟨v, hv⟩ := hv
    rw [get_iff] at hv
    obtain ⟨o, ho, R⟩ := I.rep i v hv
    obtain ⟨h1, o1, e1, lj1, la1, sc1, fj1, fa1, -⟩ := R.dealloc true
    refine ⟨⟨h1, w.objs.set i none⟩, by simp [step, obj_ok ho, call, e1], ?_⟩
    exact I.drop ho sc1 fa1 fj1

/-- A program: statement after statement. -/
theorem run_inv {z : B} (ops : List (Op B)) : ∀ {w : World B} {s : State B}, Inv z w s → AllValid z s ops →
    ∃ w', ops.foldlM step w = .ok w' ∧ Inv z w' (run z s ops) := by
  induction ops with
  | nil => intro w s I _; exact ⟨w, rfl, I⟩
  | cons op ops ih =>
    intro w s I hv
    obtain ⟨w1, e1, I1⟩ := step_inv I op hv.1
    obtain ⟨w2, e2, I2⟩ := ih I1 hv.2
    refine ⟨w2, ?_, I2⟩
    rw [List.foldlM_cons, e1, Res.ok_bind, e2]

end BcrsWorld
end Istl
