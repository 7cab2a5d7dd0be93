import Verif.Lemmas.BlockVec

/-! Lemmas for C98: exchange, destruction, element access, loops over the elements. -/

namespace Istl.BVec
variable {B : Type}

theorem Rep.synced {M : Mem B} {vec : Nat → Option Vec} {vals : Vals B} (h : Rep M vec vals) {x : Nat} {v : Vec}
    (hv : vec x = some v) : v = BVec.sync v.st := (h.obj x v hv).choose_spec.2.1

theorem Rep.holds {M : Mem B} {vec : Nat → Option Vec} {vals : Vals B} (h : Rep M vec vals) {x : Nat} {v : Vec}
    (hv : vec x = some v) : ∃ l, vals x = some l ∧ Holds M v.st l :=
  let ⟨l, h1, _, h3⟩ := h.obj x v hv; ⟨l, h1, h3⟩

theorem Rep.live {M : Mem B} {vec : Nat → Option Vec} {vals : Vals B} (h : Rep M vec vals) {x : Nat} {l : List B}
    (hl : vals x = some l) : ∃ v, vec x = some v ∧ v = BVec.sync v.st ∧ Holds M v.st l := by
  cases hv : vec x with
  | none => rw [h.gone x hv] at hl; cases hl
  | some v =>
    obtain ⟨k, h1, h2, h3⟩ := h.obj x v hv
    rw [hl] at h1; injection h1 with h1; subst h1
    exact ⟨v, rfl, h2, h3⟩

theorem storOf_some {vec : Nat → Option Vec} {x : Nat} {v : Vec} (h : vec x = some v) : storOf vec x = v.st := by
  unfold storOf; rw [h]

theorem storOf_none {vec : Nat → Option Vec} {x : Nat} (h : vec x = none) : storOf vec x = Stor.empty := by
  unfold storOf; rw [h]

/-- Renaming of the objects by a permutation of the names. -/
theorem Rep.perm {M : Mem B} {vec : Nat → Option Vec} {vals : Vals B} (h : Rep M vec vals) (σ : Nat → Nat)
    (hσ : Function.Involutive σ) : Rep M (fun x => vec (σ x)) (fun x => vals (σ x)) := by
  refine ⟨fun x v hv => h.obj (σ x) v hv, fun x hx => h.gone (σ x) hx, ?_, ?_⟩
  · intro x y v u b h1 h2 h3 h4
    have := h.inj (σ x) (σ y) v u b h1 h2 h3 h4
    exact hσ.injective this
  · intro b k hk
    obtain ⟨x, v, h1, h2⟩ := h.owned b k hk
    exact ⟨σ x, v, by rw [hσ x]; exact h1, h2⟩

/-- The names `x` and `y` exchanged. -/
def exch (x y z : Nat) : Nat := if z = x then y else if z = y then x else z

theorem exch_invol (x y : Nat) : Function.Involutive (exch x y) := by
  intro z
  unfold exch
  split_ifs <;> simp_all

theorem update_exch {A : Type} (f : Nat → A) (x y : Nat) :
    Function.update (Function.update f x (f y)) y (f x) = fun z => f (exch x y z) := by
  funext z
  unfold exch
  by_cases h1 : z = y
  · subst h1
    rw [Function.update_self]
    by_cases h2 : z = x
    · rw [if_pos h2, h2]
    · rw [if_neg h2, if_pos rfl]
  · rw [Function.update_of_ne h1]
    by_cases h2 : z = x
    · subst h2; rw [Function.update_self, if_pos rfl]
    · rw [Function.update_of_ne h2, if_neg h2, if_neg h1]

theorem Rep.exchange {M : Mem B} {vec : Nat → Option Vec} {vals : Vals B} (h : Rep M vec vals) (x y : Nat) :
    Rep M (Function.update (Function.update vec x (vec y)) y (vec x))
      (Function.update (Function.update vals x (vals y)) y (vals x)) := by
  rw [update_exch, update_exch]
  exact h.perm _ (exch_invol x y)

/-- A destroyed object. -/
theorem Rep.remove {M : Mem B} {vec : Nat → Option Vec} {vals : Vals B} (h : Rep M vec vals) {x : Nat} {v : Vec}
    (hv : vec x = some v) :
    ∃ M', release M v.st = .ok M' ∧ Rep M' (Function.update vec x none) (Function.update vals x none) := by
  obtain ⟨l, _, hl⟩ := h.holds hv
  have hs : ∀ (M' : Mem B), (∀ b, (∀ y u, y ≠ x → vec y = some u → u.st.blk = some b → M'[b]? = M[b]?)) →
      (∀ b k, M'[b]? = some (some k) → v.st.blk ≠ some b ∧ M[b]? = some (some k)) →
      Rep M' (Function.update vec x none) (Function.update vals x none) := by
    intro M' keep leak
    refine ⟨?_, ?_, ?_, ?_⟩
    · intro y u hu
      by_cases hy : y = x
      · subst hy; rw [Function.update_self] at hu; cases hu
      · rw [Function.update_of_ne hy] at hu ⊢
        obtain ⟨k, h1, h2, h3⟩ := h.obj y u hu
        refine ⟨k, h1, h2, ?_⟩
        cases hb : u.st.blk with
        | none => unfold Holds at h3 ⊢; rw [hb] at h3 ⊢; exact h3
        | some b => exact Holds.mk hb (by rw [keep b y u hy hu hb]; exact h3.get hb) h3.size h3.cap
    · intro y hy
      by_cases hyx : y = x
      · subst hyx; rw [Function.update_self]
      · rw [Function.update_of_ne hyx] at hy ⊢; exact h.gone y hy
    · intro y z u t b h1 h2 h3 h4
      by_cases hy : y = x
      · subst hy; rw [Function.update_self] at h1; cases h1
      · by_cases hz : z = x
        · subst hz; rw [Function.update_self] at h2; cases h2
        · rw [Function.update_of_ne hy] at h1
          rw [Function.update_of_ne hz] at h2
          exact h.inj y z u t b h1 h2 h3 h4
    · intro b k hk
      obtain ⟨h1, h2⟩ := leak b k hk
      obtain ⟨y, u, hu, hb⟩ := h.owned b k h2
      have : y ≠ x := by
        intro e; subst e
        rw [hv] at hu; injection hu with hu; subst hu
        exact h1 hb
      exact ⟨y, u, by rw [Function.update_of_ne this]; exact hu, hb⟩
  cases hb : v.st.blk with
  | none =>
    refine ⟨M, by simp [release, Stor.data, hb, Mem.free], hs M (fun _ _ _ _ _ _ => rfl) ?_⟩
    intro b k hk; exact ⟨by rw [hb]; simp, hk⟩
  | some b =>
    refine ⟨M.set b none, by simp [release, Stor.data, hb, Mem.free, hl.get hb], hs _ ?_ ?_⟩
    · intro c y u hy hu hc
      have : b ≠ c := fun e => hy (h.inj y x u v c hu hv hc (by rw [hb, e]))
      rw [List.getElem?_set, if_neg this]
    · intro c k hk
      by_cases hcb : b = c
      · subst hcb
        rw [List.getElem?_set] at hk
        have := (List.getElem?_eq_some_iff.1 (hl.get hb)).1
        simp [this] at hk
      · rw [List.getElem?_set, if_neg hcb] at hk
        exact ⟨by rw [hb]; simpa using hcb, hk⟩

/-- New contents of the same length in the block of an object. -/
theorem Rep.content {M : Mem B} {vec : Nat → Option Vec} {vals : Vals B} (h : Rep M vec vals) {x : Nat} {v : Vec}
    (hv : vec x = some v) {b : Nat} (hb : v.st.blk = some b) {l l' : List B} (hl : vals x = some l)
    (hlen : l'.length = l.length) : Rep (M.set b (some l')) vec (Function.update vals x (some l')) := by
  obtain ⟨k, h1, h2⟩ := h.holds hv
  rw [hl] at h1; injection h1 with h1; subst h1
  have ht : Trans M (storOf vec x) (M.set b (some l')) v.st l' := by
    rw [storOf_some hv]
    obtain ⟨M', s', e1, e2, e3, e4⟩ := inPlace_spec h2 (l' := l') (by rw [hlen]; exact h2.cap)
    have : inPlace M v.st l' = .ok (M.set b (some l'), v.st) := by
      simp only [inPlace, hb, h2.get hb]
      congr 2
      have := h2.size
      have hsz : l'.length = v.st.size := by omega
      rw [hsz, ← hb]
    rw [this] at e1
    injection e1 with e1
    injection e1 with e1 e5
    subst e1; subst e5
    exact e2
  have := h.update ht
  rwa [← h.synced hv, ← hv, Function.update_eq_self] at this

/-! ### Element access -/

theorem load_ok {M : Mem B} {b off i : Nat} {l : List B} (h : M[b]? = some (some l)) (hi : off + i < l.length) :
    load M (some ⟨b, off⟩) i = .ok l[off + i] := by
  unfold load shift Mem.read
  simp only [Option.map_some, h, Nat.one_ne_zero, if_false]
  rw [if_pos (by omega)]
  have : (l.drop (off + i)).take 1 = [l[off + i]] := by
    rw [List.drop_eq_getElem_cons hi, List.take_succ_cons, List.take_zero]
  rw [this]

theorem store_ok {M : Mem B} {b off i : Nat} {l : List B} (h : M[b]? = some (some l)) (hi : off + i < l.length) (c : B) :
    store M (some ⟨b, off⟩) i c = .ok (M.set b (some (l.set (off + i) c))) := by
  unfold store shift Mem.write
  simp only [Option.map_some, h]
  rw [if_neg (by simp), if_pos (by simp; omega)]
  congr 3
  rw [List.set_eq_take_append_cons_drop, if_pos hi]
  simp

theorem store_inv {M M' : Mem B} {p : Option Ptr} {i : Nat} {c : B} (h : store M p i c = .ok M') :
    ∃ b off l, p = some ⟨b, off⟩ ∧ M[b]? = some (some l) ∧ off + i < l.length ∧ M' = M.set b (some (l.set (off + i) c)) := by
  cases p with
  | none => simp [store, shift, Mem.write] at h
  | some q =>
    obtain ⟨b, off⟩ := q
    cases hb : M[b]? with
    | none => simp [store, shift, Mem.write, hb] at h
    | some o =>
      cases o with
      | none => simp [store, shift, Mem.write, hb] at h
      | some l =>
        by_cases hi : off + i < l.length
        · refine ⟨b, off, l, rfl, hb, hi, ?_⟩
          rw [store_ok hb hi] at h
          injection h with h
          exact h.symm
        · simp only [store, shift, Mem.write, hb, Option.map_some] at h
          rw [if_neg (by simp), if_neg (by simp; omega)] at h
          cases h

theorem load_total (M : Mem B) (p : Option Ptr) (i : Nat) : (∃ b, load M p i = .ok b) ∨ load M p i = .ub := by
  unfold load
  unfold Mem.read
  simp only [Nat.one_ne_zero, if_false]
  cases shift p i with
  | none => right; rfl
  | some q =>
    cases hM : M[q.blk]? with
    | none => right; simp [hM]
    | some o =>
      cases o with
      | none => right; simp [hM]
      | some l =>
        by_cases h : q.off + 1 ≤ l.length
        · simp only [hM, if_pos h]
          cases hd : (l.drop q.off).take 1 with
          | nil => right; rfl
          | cons a t => left; exact ⟨a, rfl⟩
        · right; simp [hM, h]

theorem store_total (M : Mem B) (p : Option Ptr) (i : Nat) (c : B) :
    (∃ M', store M p i c = .ok M') ∨ store M p i c = .ub := by
  unfold store Mem.write
  simp only [List.cons_ne_nil, if_false]
  cases shift p i with
  | none => right; rfl
  | some q =>
    cases hM : M[q.blk]? with
    | none => right; simp [hM]
    | some o =>
      cases o with
      | none => right; simp [hM]
      | some l =>
        by_cases h : q.off + 1 ≤ l.length
        · left; simp [hM, h]
        · right; simp [hM, h]

/-- Storing keeps the invariant, for some values. -/
theorem Rep.stored {M M' : Mem B} {vec : Nat → Option Vec} {vals : Vals B} (h : Rep M vec vals) {p : Option Ptr} {i : Nat}
    {c : B} (hs : store M p i c = .ok M') : ∃ vals', Rep M' vec vals' := by
  obtain ⟨b, off, l, hp, hb, hi, hM⟩ := store_inv hs
  obtain ⟨x, v, hv, hvb⟩ := h.owned b l hb
  obtain ⟨k, hk, hh⟩ := h.holds hv
  have : k = l := by
    have := hh.get hvb
    rw [hb] at this
    injection this with this
    injection this with this
    exact this.symm
  subst this
  subst hM
  exact ⟨_, h.content hv hvb hk (by simp)⟩

theorem forRangeM_ok_inv {S : Type} {n : Nat} {f : Nat → S → Res S} (I : S → Prop)
    (hs : ∀ i s s', i < n → I s → f i s = .ok s' → I s') {s s' : S} (h0 : I s) (h : forRangeM n f s = .ok s') : I s' := by
  induction n generalizing s' with
  | zero =>
    simp [forRangeM] at h
    subst h; exact h0
  | succ n ih =>
    rw [forRangeM_succ, Res.bind_eq_ok] at h
    obtain ⟨t, h1, h2⟩ := h
    exact hs n t s' (by omega) (ih (fun i s s' hi => hs i s s' (by omega)) h1) h2

theorem Rep.filled {M M' : Mem B} {vec : Nat → Option Vec} (h : ∃ vals, Rep M vec vals) {p : Option Ptr} {n : Nat}
    {c : B} (hs : fillBase M p n c = .ok M') : ∃ vals', Rep M' vec vals' :=
  forRangeM_ok_inv (fun M => ∃ vals, Rep M vec vals) (fun _ _ _ _ ⟨_, hr⟩ e => hr.stored e) h hs

theorem Rep.copied {M M' : Mem B} {vec : Nat → Option Vec} (h : ∃ vals, Rep M vec vals) {p q : Option Ptr} {n : Nat}
    (hs : copyLoop M p q n = .ok M') : ∃ vals', Rep M' vec vals' := by
  refine forRangeM_ok_inv (fun M => ∃ vals, Rep M vec vals) ?_ h hs
  intro i s s' _ ⟨_, hr⟩ e
  rw [Res.bind_eq_ok] at e
  obtain ⟨b, _, e2⟩ := e
  exact hr.stored e2

theorem set_self {M : Mem B} {b : Nat} {l : List B} (h : M[b]? = some (some l)) : M = M.set b (some l) := by
  obtain ⟨h1, h2⟩ := List.getElem?_eq_some_iff.1 h
  rw [← h2, List.set_getElem_self]

/-- The fill loop. -/
theorem fillBase_ok {M : Mem B} {b off n : Nat} {l : List B} (h : M[b]? = some (some l)) (hn : off + n ≤ l.length) (c : B) :
    BVec.fillBase M (some ⟨b, off⟩) n c = .ok (M.set b (some (l.take off ++ List.replicate n c ++ l.drop (off + n)))) := by
  obtain ⟨M', e, l', hM, hlen, hl'⟩ := forRangeM_inv n (fun i M => BVec.store M (some ⟨b, off⟩) i c)
    (fun i M' => ∃ l', M' = M.set b (some l') ∧ l'.length = l.length ∧
      ∀ j, l'[j]? = if off ≤ j ∧ j < off + i then some c else l[j]?) M
    ⟨l, set_self h, rfl, fun j => by rw [if_neg (by omega)]⟩
    (by
      rintro i M1 hi ⟨l1, rfl, hlen, hl1⟩
      have hb1 : (M.set b (some l1))[b]? = some (some l1) := by
        have := (List.getElem?_eq_some_iff.1 h).1
        rw [List.getElem?_set]; simp [this]
      refine ⟨_, store_ok hb1 (by omega) c, l1.set (off + i) c, by rw [List.set_set], by simpa using hlen, ?_⟩
      intro j
      rw [List.getElem?_set, hl1 j]
      by_cases hj : off + i = j
      · subst hj
        rw [if_pos rfl, if_pos (by omega), if_pos (by omega)]
      · rw [if_neg hj]
        by_cases hj2 : off ≤ j ∧ j < off + i
        · rw [if_pos hj2, if_pos (by omega)]
        · rw [if_neg hj2, if_neg (by omega)])
  have : l' = l.take off ++ List.replicate n c ++ l.drop (off + n) := by
    apply List.ext_getElem?
    intro j
    rw [hl' j]
    by_cases h1 : j < off
    · rw [if_neg (by omega), List.append_assoc, List.getElem?_append_left (by simp; omega), List.getElem?_take, if_pos h1]
    · by_cases h2 : j < off + n
      · rw [if_pos (by omega), List.append_assoc, List.getElem?_append_right (by simp; omega),
          List.getElem?_append_left (by simp; omega), List.getElem?_replicate]
        rw [if_pos (by simp; omega)]
      · rw [if_neg (by omega), List.getElem?_append_right (by simp; omega), List.getElem?_drop]
        congr 1
        simp
        omega
  unfold BVec.fillBase
  rw [e, hM, this]

/-- The copy loop: the target shows what the source showed before, unless it starts within the source. -/
theorem copyLoop_ok {M : Mem B} {b off c off' n : Nat} {l src : List B} (h : M[b]? = some (some l))
    (hc : M[c]? = some (some src)) (hn : off + n ≤ l.length) (hn' : off' + n ≤ src.length)
    (hov : b ≠ c ∨ off ≤ off' ∨ off' + n ≤ off) :
    BVec.copyLoop M (some ⟨b, off⟩) (some ⟨c, off'⟩) n =
      .ok (M.set b (some (l.take off ++ (src.drop off').take n ++ l.drop (off + n)))) := by
  have hlt := (List.getElem?_eq_some_iff.1 h).1
  have hsame : b = c → src = l := by
    intro e; subst e
    rw [h] at hc
    injection hc with hc
    injection hc with hc
    exact hc.symm
  obtain ⟨M', e, l', hM, hlen, hl'⟩ := forRangeM_inv n
    (fun i M => do BVec.store M (some ⟨b, off⟩) i (← load M (some ⟨c, off'⟩) i))
    (fun i M' => ∃ l', M' = M.set b (some l') ∧ l'.length = l.length ∧
      ∀ j, l'[j]? = if off ≤ j ∧ j < off + i then src[off' + (j - off)]? else l[j]?) M
    ⟨l, set_self h, rfl, fun j => by rw [if_neg (by omega)]⟩
    (by
      rintro i M1 hi ⟨l1, rfl, hlen, hl1⟩
      have hb1 : (M.set b (some l1))[b]? = some (some l1) := by
        rw [List.getElem?_set]; simp [hlt]
      have hld : load (M.set b (some l1)) (some ⟨c, off'⟩) i = .ok (src[off' + i]'(by omega)) := by
        by_cases hbc : b = c
        · have hs := hsame hbc
          subst hbc
          rw [load_ok hb1 (by rw [hlen, ← hs]; omega)]
          congr 1
          have h2 := hl1 (off' + i)
          rw [if_neg (by omega), ← hs] at h2
          have h3 : off' + i < l1.length := by rw [hlen, ← hs]; omega
          have h4 : off' + i < src.length := by omega
          rw [List.getElem?_eq_getElem h3, List.getElem?_eq_getElem h4] at h2
          injection h2
        · refine load_ok ?_ (by omega)
          rw [List.getElem?_set, if_neg hbc]; exact hc
      simp only [hld, Res.ok_bind]
      refine ⟨_, store_ok hb1 (by omega) _, l1.set (off + i) _, by rw [List.set_set], by simpa using hlen, ?_⟩
      intro j
      rw [List.getElem?_set, hl1 j]
      by_cases hj : off + i = j
      · subst hj
        rw [if_pos rfl, if_pos (by omega), if_pos (by omega), List.getElem?_eq_getElem (by omega)]
        congr 2
        omega
      · rw [if_neg hj]
        by_cases hj2 : off ≤ j ∧ j < off + i
        · rw [if_pos hj2, if_pos (by omega)]
        · rw [if_neg hj2, if_neg (by omega)])
  have : l' = l.take off ++ (src.drop off').take n ++ l.drop (off + n) := by
    apply List.ext_getElem?
    intro j
    rw [hl' j]
    by_cases h1 : j < off
    · rw [if_neg (by omega), List.append_assoc, List.getElem?_append_left (by simp; omega), List.getElem?_take, if_pos h1]
    · by_cases h2 : j < off + n
      · rw [if_pos (by omega), List.append_assoc, List.getElem?_append_right (by simp; omega),
          List.getElem?_append_left (by simp; omega), List.getElem?_take, if_pos (by simp; omega), List.getElem?_drop]
        congr 2
        simp
        omega
      · rw [if_neg (by omega), List.getElem?_append_right (by simp; omega), List.getElem?_drop]
        congr 1
        simp
        omega
  unfold BVec.copyLoop
  rw [e, hM, this]

end Istl.BVec
