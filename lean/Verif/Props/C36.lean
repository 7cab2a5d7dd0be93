import Verif.Props.C35

/-!
# C36: communication makes distributed vectors consistent
-/

namespace Istl
namespace Par

open Finset

variable {V : Type}

theorem lookup_iff {A : PIS} (hA : PisOk A) (g : Nat) (e : Idx) : lookup A g = some e ↔ e ∈ A ∧ e.g = g := by
  constructor
  · intro h
    exact ⟨List.mem_of_find?_eq_some h, by simpa using List.find?_some h⟩
  · rintro ⟨h, rfl⟩
    have hs := hA.sorted
    clear hA
    unfold lookup
    induction A with
    | nil => cases h
    | cons a l ih =>
      rw [List.pairwise_cons] at hs
      rcases List.mem_cons.1 h with rfl | h
      · simp
      · have := hs.1 e h
        rw [List.find?_cons_of_neg (by simp; omega)]
        exact ih h hs.2

theorem lookup_none {A : PIS} (hA : PisOk A) (g : Nat) : lookup A g = none ↔ ∀ e ∈ A, e.g ≠ g := by
  simp [lookup]

/-- The entries of `A` that take part in the exchange with `B`. -/
def sendIdx (src dst : Attr → Bool) (A B : PIS) : PIS :=
  A.filter fun e => match lookup B e.g with | some r => src e.attr && dst r.attr | none => false

/-- The entries of `B` that take part in the exchange with `A`. -/
def recvIdx (src dst : Attr → Bool) (B A : PIS) : PIS :=
  B.filter fun e => match lookup A e.g with | some r => src r.attr && dst e.attr | none => false

theorem sendList_eq (src dst : Attr → Bool) (A B : PIS) : sendList src dst A B = (sendIdx src dst A B).map fun e => e.loc := by
  unfold sendList sendIdx
  rw [← List.filterMap_eq_map, List.filterMap_filter]
  congr 1
  funext e
  cases lookup B e.g with
  | none => simp
  | some r => simp

theorem recvList_eq (src dst : Attr → Bool) (B A : PIS) : recvList src dst B A = (recvIdx src dst B A).map fun e => e.loc := by
  unfold recvList recvIdx
  rw [← List.filterMap_eq_map, List.filterMap_filter]
  congr 1
  funext e
  cases lookup A e.g with
  | none => simp
  | some r => simp

theorem mem_recvIdx {src dst : Attr → Bool} {B A : PIS} (hA : PisOk A) {e : Idx} :
    e ∈ recvIdx src dst B A ↔ e ∈ B ∧ dst e.attr = true ∧ ∃ r ∈ A, r.g = e.g ∧ src r.attr = true := by
  unfold recvIdx
  rw [List.mem_filter]
  refine and_congr_right fun _ => ?_
  cases h : lookup A e.g with
  | none =>
    rw [lookup_none hA] at h
    simp only [Bool.false_eq_true, false_iff]
    rintro ⟨-, r, hr, h1, -⟩
    exact h r hr h1
  | some r =>
    have h' := (lookup_iff hA _ _).1 h
    simp only [Bool.and_eq_true]
    constructor
    · rintro ⟨h1, h2⟩; exact ⟨h2, r, h'.1, h'.2, h1⟩
    · rintro ⟨h2, r', h3, h4, h1⟩
      have := (lookup_iff hA _ _).2 ⟨h3, h4⟩
      rw [h] at this
      obtain rfl := Option.some.inj this
      exact ⟨h1, h2⟩

/-- Sender and receiver list the shared indices in the same order. -/
theorem aligned (src dst : Attr → Bool) {A B : PIS} (hA : PisOk A) (hB : PisOk B) :
    (sendIdx src dst A B).map (fun e => e.g) = (recvIdx src dst B A).map fun e => e.g := by
  have sA : ((sendIdx src dst A B).map fun e => e.g).Pairwise (· < ·) := by
    rw [List.pairwise_map]; exact hA.sorted.sublist List.filter_sublist
  have sB : ((recvIdx src dst B A).map fun e => e.g).Pairwise (· < ·) := by
    rw [List.pairwise_map]; exact hB.sorted.sublist List.filter_sublist
  have nA := sA.imp (fun h => Nat.ne_of_lt h : ∀ {a b : Nat}, a < b → a ≠ b)
  have nB := sB.imp (fun h => Nat.ne_of_lt h : ∀ {a b : Nat}, a < b → a ≠ b)
  refine List.Perm.eq_of_pairwise (le := (· < ·)) (fun a b _ _ h1 h2 => absurd h1 (Nat.not_lt.2 (Nat.le_of_lt h2))) sA sB ?_
  refine (List.perm_ext_iff_of_nodup nA nB).2 fun g => ?_
  simp only [List.mem_map]
  constructor
  · rintro ⟨e, he, rfl⟩
    unfold sendIdx at he
    obtain ⟨h1, h2⟩ := List.mem_filter.1 he
    cases h : lookup B e.g with
    | none => rw [h] at h2; cases h2
    | some r =>
      rw [h] at h2
      obtain ⟨h3, h4⟩ := (lookup_iff hB _ _).1 h
      simp only [Bool.and_eq_true] at h2
      exact ⟨r, (mem_recvIdx hA).2 ⟨h3, h2.2, e, h1, h4.symm, h2.1⟩, h4⟩
  · rintro ⟨r, hr, rfl⟩
    obtain ⟨h1, h2, e, h3, h4, h5⟩ := (mem_recvIdx hA).1 hr
    refine ⟨e, List.mem_filter.2 ⟨h3, ?_⟩, h4⟩
    have := (lookup_iff hB e.g r).2 ⟨h1, h4.symm⟩
    simp only [this, h2, h5, Bool.and_self]

/-- The value process `p` holds for the global index `g`. -/
def valueAt [Inhabited V] (A : PIS) (x : Nat → V) (g : Nat) : V :=
  match lookup A g with
  | some e => x e.loc
  | none => default

/-- A message with its destinations, as pairs (value, local index at the receiver). -/
theorem message_eq [Inhabited V] (src dst : Attr → Bool) {A B : PIS} (hA : PisOk A) (hB : PisOk B) (x : Nat → V) :
    ((sendList src dst A B).map x).zip (recvList src dst B A) =
      (recvIdx src dst B A).map fun e => (valueAt A x e.g, e.loc) := by
  have h1 : (sendList src dst A B).map x = (recvIdx src dst B A).map fun e => valueAt A x e.g := by
    rw [sendList_eq, List.map_map]
    have h2 : ((sendIdx src dst A B).map fun e => e.g).map (valueAt A x) = ((recvIdx src dst B A).map fun e => e.g).map (valueAt A x) := by
      rw [aligned src dst hA hB]
    rw [List.map_map, List.map_map] at h2
    refine Eq.trans (List.map_congr_left fun e he => ?_) h2
    have := (lookup_iff hA e.g e).2 ⟨(List.mem_filter.1 he).1, rfl⟩
    simp only [Function.comp, valueAt, this]
  rw [h1, recvList_eq]
  generalize recvIdx src dst B A = L
  induction L with
  | nil => rfl
  | cons a l ih => simp only [List.map_cons, List.zip_cons_cons, ih]

/-! ## Copying -/

theorem fold_copy (L : List (V × Nat)) (d : Nat → V) (l : Nat) :
    ((∀ m ∈ L, m.2 ≠ l) → (L.foldl (fun d m => upd d m.2 m.1) d) l = d l) ∧
    (∀ v, (∃ m ∈ L, m.2 = l) → (∀ m ∈ L, m.2 = l → m.1 = v) → (L.foldl (fun d m => upd d m.2 m.1) d) l = v) := by
  induction L generalizing d with
  | nil => exact ⟨fun _ => rfl, fun v h => absurd h (by simp)⟩
  | cons m rest ih =>
    constructor
    · intro h
      rw [List.foldl_cons, (ih _).1 fun m' hm => h m' (List.mem_cons_of_mem _ hm), upd, if_neg]
      exact fun h' => h m (List.mem_cons_self ..) h'.symm
    · intro v h hv
      rw [List.foldl_cons]
      by_cases hr : ∃ m' ∈ rest, m'.2 = l
      · exact (ih _).2 v hr fun m' hm => hv m' (List.mem_cons_of_mem _ hm)
      · rw [(ih _).1 fun m' hm h' => hr ⟨m', hm, h'⟩]
        obtain ⟨m', hm', h'⟩ := h
        rcases List.mem_cons.1 hm' with rfl | hm'
        · rw [upd, if_pos h'.symm]; exact hv m' (List.mem_cons_self ..) h'
        · exact absurd ⟨m', hm', h'⟩ hr

theorem forward_eq [Inhabited V] (comb : V → V → V) (src dst : Attr → Bool) {P : Nat} {pis : Nat → PIS} (hok : ∀ p, p < P → PisOk (pis p))
    (source dest : Nat → Nat → V) {q : Nat} (hq : q < P) (order : List Nat) (hord : ∀ p ∈ order, p < P) :
    forward comb src dst pis source dest q order =
      ((order.map fun p => (recvIdx src dst (pis q) (pis p)).map fun e => (valueAt (pis p) (source p) e.g, e.loc)).flatten).foldl
        (fun d m => upd d m.2 (comb (d m.2) m.1)) (dest q) := by
  unfold forward
  generalize dest q = d
  induction order generalizing d with
  | nil => rfl
  | cons p rest ih =>
    rw [List.foldl_cons, ih fun p hp => hord p (List.mem_cons_of_mem _ hp), List.map_cons, List.flatten_cons, List.foldl_append]
    unfold scatter
    rw [message_eq src dst (hok p (hord p (List.mem_cons_self ..))) (hok q hq)]

/-- The messages that write to local index `l` of process `q`. -/
theorem mem_messages [Inhabited V] {src dst : Attr → Bool} {P : Nat} {pis : Nat → PIS} (hok : ∀ p, p < P → PisOk (pis p))
    {source : Nat → Nat → V} {q : Nat} {order : List Nat} (hord : ∀ p ∈ order, p < P) {m : V × Nat} :
    m ∈ ((order.map fun p => (recvIdx src dst (pis q) (pis p)).map fun e => (valueAt (pis p) (source p) e.g, e.loc)).flatten) ↔
      ∃ p ∈ order, ∃ e ∈ pis q, ∃ r ∈ pis p, r.g = e.g ∧ src r.attr = true ∧ dst e.attr = true ∧ m = (source p r.loc, e.loc) := by
  simp only [List.mem_flatten, List.mem_map]
  constructor
  · rintro ⟨_, ⟨p, hp, rfl⟩, hm⟩
    obtain ⟨e, he, rfl⟩ := List.mem_map.1 hm
    obtain ⟨h1, h2, r, h3, h4, h5⟩ := (mem_recvIdx (hok p (hord p hp))).1 he
    refine ⟨p, hp, e, h1, r, h3, h4, h5, h2, ?_⟩
    have := (lookup_iff (hok p (hord p hp)) e.g r).2 ⟨h3, h4⟩
    simp only [valueAt, this]
  · rintro ⟨p, hp, e, h1, r, h3, h4, h5, h2, rfl⟩
    refine ⟨_, ⟨p, hp, rfl⟩, List.mem_map.2 ⟨e, (mem_recvIdx (hok p (hord p hp))).2 ⟨h1, h2, r, h3, h4, h5⟩, ?_⟩⟩
    have := (lookup_iff (hok p (hord p hp)) e.g r).2 ⟨h3, h4⟩
    simp only [valueAt, this]

/-- **copyOwnerToAll**, on every process `q` and for every order in which the messages of the other processes arrive:
every entry whose index is owned by another process gets the owner's value of `source`; all other entries of `dest` — the owned ones,
those without any owner, and those not in the index set — keep their value. -/
theorem C36_copyOwnerToAll {P : Nat} {pis : Nat → PIS} (hok : ∀ p, p < P → PisOk (pis p))
    (hun : ∀ p q, p < P → q < P → ∀ e ∈ pis p, ∀ f ∈ pis q, e.attr = .owner → f.attr = .owner → e.g = f.g → p = q)
    (source dest : Nat → Nat → V) {q : Nat} (hq : q < P) (order : List Nat) (hord : order.Perm ((List.range P).filter (· ≠ q))) :
    (∀ e ∈ pis q, ∀ p, p < P → p ≠ q → ∀ r ∈ pis p, r.g = e.g → r.attr = .owner →
      copyOwnerToAll pis source dest q order e.loc = source p r.loc) ∧
    (∀ l, (∀ e ∈ pis q, e.loc = l → ∀ p, p < P → p ≠ q → ∀ r ∈ pis p, r.g = e.g → r.attr ≠ .owner) →
      copyOwnerToAll pis source dest q order l = dest q l) := by
  rcases isEmpty_or_nonempty V with hV | ⟨⟨v0⟩⟩
  · exact ⟨fun e _ p _ _ r _ _ _ => (hV.false (source p r.loc)).elim, fun l _ => (hV.false (dest q l)).elim⟩
  letI : Inhabited V := ⟨v0⟩
  have hmem : ∀ p, p ∈ order ↔ p < P ∧ p ≠ q := fun p => by rw [hord.mem_iff]; simp
  have hlt : ∀ p ∈ order, p < P := fun p hp => ((hmem p).1 hp).1
  have hloc : ∀ e ∈ pis q, ∀ f ∈ pis q, e.loc = f.loc → e = f := List.inj_on_of_nodup_map (hok q hq).locs
  unfold copyOwnerToAll
  rw [forward_eq _ _ _ hok source dest hq order hlt]
  constructor
  · intro e he p hp hpq r hr hg ha
    refine (fold_copy _ _ e.loc).2 _ ⟨_, (mem_messages hok hlt).2 ⟨p, (hmem p).2 ⟨hp, hpq⟩, e, he, r, hr, hg, by simp [isOwner, ha], rfl, rfl⟩,
      rfl⟩ ?_
    intro m hm hl
    obtain ⟨p', hp', e', he', r', hr', hg', ha', -, rfl⟩ := (mem_messages hok hlt).1 hm
    obtain rfl := hloc e' he' e he hl
    have ha' : r'.attr = .owner := by simpa [isOwner] using ha'
    obtain rfl := hun p' p (hlt p' hp') hp r' hr' r hr ha' ha (by rw [hg', hg])
    have h1 := (lookup_iff (hok p' hp) e'.g r').2 ⟨hr', hg'⟩
    have h2 := (lookup_iff (hok p' hp) e'.g r).2 ⟨hr, hg⟩
    rw [h1] at h2
    obtain rfl := Option.some.inj h2
    rfl
  · intro l hl
    refine (fold_copy _ _ l).1 fun m hm h => ?_
    obtain ⟨p', hp', e', he', r', hr', hg', ha', -, rfl⟩ := (mem_messages hok hlt).1 hm
    exact hl e' he' h p' (hlt p' hp') ((hmem p').1 hp').2 r' hr' hg' (by simpa [isOwner] using ha')

/-- **Consistency**: if each index has exactly one owner, `copyOwnerToAll(x,x)` turns every distributed vector into a consistent one
whose global values are the owners' values. -/
theorem C36_consistent {P : Nat} {pis : Nat → PIS} {sz : Nat → Nat} {G : Finset Nat} (hD : Decomp P pis sz G) (x : Nat → Nat → V)
    (X : Nat → V) (hx : ConsistentAtOwner P pis x X) (order : Nat → List Nat)
    (hord : ∀ q, q < P → (order q).Perm ((List.range P).filter (· ≠ q))) :
    Consistent P pis (fun q => copyOwnerToAll pis x x q (order q)) X := by
  intro q hq e he
  obtain ⟨c1, c2⟩ := C36_copyOwnerToAll hD.ok hD.unique x x hq (order q) (hord q hq)
  obtain ⟨p, hp, r, hr, hg, ha⟩ := hD.owned e.g (hD.inG q hq e he)
  by_cases hpq : p = q
  · subst hpq
    have hre : r = e := by
      have h1 := (lookup_iff (hD.ok p hp) e.g r).2 ⟨hr, hg⟩
      have h2 := (lookup_iff (hD.ok p hp) e.g e).2 ⟨he, rfl⟩
      rw [h1] at h2; exact Option.some.inj h2
    subst hre
    have hloc : ∀ e ∈ pis p, ∀ f ∈ pis p, e.loc = f.loc → e = f := List.inj_on_of_nodup_map (hD.ok p hp).locs
    change copyOwnerToAll pis x x p (order p) r.loc = X r.g
    rw [show copyOwnerToAll pis x x p (order p) r.loc = x p r.loc from ?_]
    · exact hx p hp r hr ha
    · refine c2 r.loc fun e' he' hl p' hp' hpp r' hr' hg' ha' => ?_
      obtain rfl := hloc e' he' r hr hl
      exact hpp (hD.unique p' p hp' hp r' hr' e' he' ha' ha hg')
  · change copyOwnerToAll pis x x q (order q) e.loc = X e.g
    rw [c1 e he p hp hpq r hr hg ha, hx p hp r hr ha, hg]

/-- **Idempotence**: on a consistent vector `copyOwnerToAll(x,x)` changes nothing, not even outside the index set. -/
theorem C36_idempotent {P : Nat} {pis : Nat → PIS} {sz : Nat → Nat} {G : Finset Nat} (hD : Decomp P pis sz G) (x : Nat → Nat → V)
    (X : Nat → V) (hx : Consistent P pis x X) {q : Nat} (hq : q < P) (order : List Nat)
    (hord : order.Perm ((List.range P).filter (· ≠ q))) : copyOwnerToAll pis x x q order = x q := by
  obtain ⟨c1, c2⟩ := C36_copyOwnerToAll hD.ok hD.unique x x hq order hord
  funext l
  by_cases h : ∀ e ∈ pis q, e.loc = l → ∀ p, p < P → p ≠ q → ∀ r ∈ pis p, r.g = e.g → r.attr ≠ .owner
  · exact c2 l h
  · push Not at h
    obtain ⟨e, he, rfl, p, hp, hpq, r, hr, hg, ha⟩ := h
    rw [c1 e he p hp hpq r hr hg ha, hx p hp r hr, hx q hq e he, hg]

/-! ## Adding -/

theorem fold_add [AddCommMonoid V] (L : List (V × Nat)) (d : Nat → V) (l : Nat) :
    (L.foldl (fun d m => upd d m.2 (d m.2 + m.1)) d) l = d l + ((L.filter fun m => m.2 = l).map Prod.fst).sum := by
  induction L generalizing d with
  | nil => simp
  | cons m rest ih =>
    rw [List.foldl_cons, ih]
    by_cases h : m.2 = l
    · rw [List.filter_cons_of_pos (by simpa using h), List.map_cons, List.sum_cons, upd, if_pos h.symm, h, add_assoc]
    · rw [List.filter_cons_of_neg (by simpa using h), upd, if_neg fun h' => h h'.symm]

/-- What process `p` contributes to the global index `g`: its value if it knows the index with a source attribute. -/
def contribution [Zero V] (src : Attr → Bool) (A : PIS) (x : Nat → V) (g : Nat) : V :=
  match lookup A g with
  | some e => if src e.attr then x e.loc else 0
  | none => 0

/-- The sum of one message at the position of an entry of the index set. -/
theorem message_sum [AddCommMonoid V] (src dst : Attr → Bool) {A B : PIS} (hA : PisOk A) (hB : PisOk B) (x : Nat → V) {e : Idx}
    (he : e ∈ B) :
    ((((recvIdx src dst B A).map fun e => (@valueAt V ⟨0⟩ A x e.g, e.loc)).filter fun m => m.2 = e.loc).map Prod.fst).sum =
      if dst e.attr then contribution src A x e.g else 0 := by
  letI : Inhabited V := ⟨0⟩
  have hloc : ∀ f ∈ B, f.loc = e.loc → f = e := fun f hf h => List.inj_on_of_nodup_map hB.locs hf he h
  have hnd : (recvIdx src dst B A).Nodup := by
    have : B.Nodup := List.Nodup.of_map _ hB.locs
    exact this.sublist List.filter_sublist
  rw [List.filter_map, List.map_map]
  have hf : ((recvIdx src dst B A).filter ((fun m : V × Nat => decide (m.2 = e.loc)) ∘ fun e => (valueAt A x e.g, e.loc))) =
      (recvIdx src dst B A).filter (fun f => decide (f = e)) := by
    refine List.filter_congr fun f hf => ?_
    simp only [Function.comp]
    by_cases h : f.loc = e.loc
    · have := hloc f (List.mem_filter.1 hf).1 h
      simp [this]
    · have : f ≠ e := fun h' => h (by rw [h'])
      simp [this, h]
  rw [hf]
  by_cases hin : e ∈ recvIdx src dst B A
  · have h1 : (recvIdx src dst B A).filter (fun f => decide (f = e)) = [e] := by
      rw [show (fun f => decide (f = e)) = (fun f => f == e) from funext fun f => by rw [Bool.eq_iff_iff]; simp]
      rw [List.filter_beq, List.count_eq_one_of_mem hnd hin]
      rfl
    rw [h1]
    obtain ⟨-, h2, r, h3, h4, h5⟩ := (mem_recvIdx hA).1 hin
    have h6 := (lookup_iff hA e.g r).2 ⟨h3, h4⟩
    simp only [List.map_cons, List.map_nil, List.sum_cons, List.sum_nil, add_zero, Function.comp, h2, if_true, contribution, valueAt, h6,
      h5]
  · have h1 : (recvIdx src dst B A).filter (fun f => decide (f = e)) = [] := by
      rw [List.filter_eq_nil_iff]
      intro f hf h
      simp only [decide_eq_true_eq] at h
      exact hin (h ▸ hf)
    rw [h1, List.map_nil, List.sum_nil]
    by_cases h2 : dst e.attr = true
    · rw [if_pos h2]
      unfold contribution
      cases h : lookup A e.g with
      | none => rfl
      | some r =>
        obtain ⟨h3, h4⟩ := (lookup_iff hA _ _).1 h
        simp only
        rw [if_neg]
        intro h5
        exact hin ((mem_recvIdx hA).2 ⟨he, h2, r, h3, h4, h5⟩)
    · rw [if_neg h2]

/-- **Adding communication**, any attribute sets: on every process and for every order of arrival, each entry with a destination attribute
is increased by the sum of the values of all other processes that know its index with a source attribute; everything else is unchanged. -/
theorem C36_add [AddCommMonoid V] (src dst : Attr → Bool) {P : Nat} {pis : Nat → PIS} (hok : ∀ p, p < P → PisOk (pis p))
    (source dest : Nat → Nat → V) {q : Nat} (hq : q < P) (order : List Nat) (hord : order.Perm ((List.range P).filter (· ≠ q))) :
    (∀ e ∈ pis q, forward (fun a v => a + v) src dst pis source dest q order e.loc =
      dest q e.loc + ∑ p ∈ (range P).filter (· ≠ q), if dst e.attr then contribution src (pis p) (source p) e.g else 0) ∧
    (∀ l, (∀ e ∈ pis q, e.loc ≠ l) → forward (fun a v => a + v) src dst pis source dest q order l = dest q l) := by
  letI : Inhabited V := ⟨0⟩
  have hmem : ∀ p, p ∈ order ↔ p < P ∧ p ≠ q := fun p => by rw [hord.mem_iff]; simp
  have hlt : ∀ p ∈ order, p < P := fun p hp => ((hmem p).1 hp).1
  rw [forward_eq _ _ _ hok source dest hq order hlt]
  constructor
  · intro e he
    rw [fold_add]
    congr 1
    have h1 : ((((order.map fun p => (recvIdx src dst (pis q) (pis p)).map fun e => (valueAt (pis p) (source p) e.g, e.loc)).flatten).filter
        fun m => m.2 = e.loc).map Prod.fst).sum =
        (order.map fun p => if dst e.attr then contribution src (pis p) (source p) e.g else 0).sum := by
      clear hord hmem
      induction order with
      | nil => rfl
      | cons p rest ih =>
        rw [List.map_cons, List.flatten_cons, List.filter_append, List.map_append, List.sum_append,
          ih fun p hp => hlt p (List.mem_cons_of_mem _ hp), List.map_cons, List.sum_cons]
        congr 1
        exact message_sum src dst (hok p (hlt p (List.mem_cons_self ..))) (hok q hq) (source p) he
    rw [h1, (hord.map _).sum_eq, ← List.sum_toFinset _ (List.nodup_range.filter _)]
    congr 1
    ext i
    simp
  · intro l hl
    rw [fold_add]
    rw [List.filter_eq_nil_iff.2, List.map_nil, List.sum_nil, add_zero]
    intro m hm h
    obtain ⟨p', hp', e', he', r', hr', hg', ha', -, rfl⟩ := (mem_messages hok hlt).1 hm
    exact hl e' he' (by simpa using h)

/-- The three public additive operations are instances; spelled out for `addOwnerOverlapToAll`: afterwards an entry holds its old value
plus the values of all other processes that own the index or have it as overlap. -/
theorem C36_addOwnerOverlapToAll [AddCommMonoid V] {P : Nat} {pis : Nat → PIS} (hok : ∀ p, p < P → PisOk (pis p))
    (source dest : Nat → Nat → V) {q : Nat} (hq : q < P) (order : List Nat) (hord : order.Perm ((List.range P).filter (· ≠ q))) :
    ∀ e ∈ pis q, addOwnerOverlapToAll pis source dest q order e.loc =
      dest q e.loc + ∑ p ∈ (range P).filter (· ≠ q), contribution (fun a => a ≠ .copy) (pis p) (source p) e.g := by
  intro e he
  have h := (C36_add isOwnerOverlap isAll hok source dest hq order hord).1 e he
  have : isOwnerOverlap = fun a => decide (a ≠ .copy) := by funext a; cases a <;> rfl
  rw [this] at h
  unfold addOwnerOverlapToAll
  rw [this, h]
  rfl

/-- Likewise for `addOwnerCopyToAll` and `addOwnerCopyToOwnerCopy`; the latter leaves overlap entries alone. -/
theorem C36_addOwnerCopy [AddCommMonoid V] {P : Nat} {pis : Nat → PIS} (hok : ∀ p, p < P → PisOk (pis p))
    (source dest : Nat → Nat → V) {q : Nat} (hq : q < P) (order : List Nat) (hord : order.Perm ((List.range P).filter (· ≠ q))) :
    (∀ e ∈ pis q, addOwnerCopyToAll pis source dest q order e.loc =
      dest q e.loc + ∑ p ∈ (range P).filter (· ≠ q), contribution (fun a => a ≠ .overlap) (pis p) (source p) e.g) ∧
    (∀ e ∈ pis q, e.attr ≠ .overlap → addOwnerCopyToOwnerCopy pis source dest q order e.loc =
      dest q e.loc + ∑ p ∈ (range P).filter (· ≠ q), contribution (fun a => a ≠ .overlap) (pis p) (source p) e.g) ∧
    (∀ e ∈ pis q, e.attr = .overlap → addOwnerCopyToOwnerCopy pis source dest q order e.loc = dest q e.loc) := by
  have this : isOwnerCopy = fun a => decide (a ≠ .overlap) := by funext a; cases a <;> rfl
  refine ⟨fun e he => ?_, fun e he ha => ?_, fun e he ha => ?_⟩
  · have h := (C36_add isOwnerCopy isAll hok source dest hq order hord).1 e he
    unfold addOwnerCopyToAll
    rw [h, this]
    rfl
  · have h := (C36_add isOwnerCopy isOwnerCopy hok source dest hq order hord).1 e he
    unfold addOwnerCopyToOwnerCopy
    rw [h, this]
    simp [ha]
  · have h := (C36_add isOwnerCopy isOwnerCopy hok source dest hq order hord).1 e he
    unfold addOwnerCopyToOwnerCopy
    rw [h, this]
    simp [ha]

/-- **project** sets exactly the copy entries to zero. -/
theorem C36_project [Zero V] {A : PIS} (hA : PisOk A) (x : Nat → V) :
    (∀ e ∈ A, e.attr = .copy → project A x e.loc = 0) ∧ (∀ l, (∀ e ∈ A, e.loc = l → e.attr ≠ .copy) → project A x l = x l) := by
  have key : ∀ (A : PIS) (x : Nat → V) (l : Nat), project A x l = if ∃ e ∈ A, e.loc = l ∧ e.attr = .copy then 0 else x l := by
    intro A
    induction A with
    | nil => intro x l; simp [project]
    | cons a rest ih =>
      intro x l
      have : project (a :: rest) x = project rest (if a.attr = .copy then upd x a.loc 0 else x) := rfl
      rw [this, ih]
      by_cases hr : ∃ e ∈ rest, e.loc = l ∧ e.attr = .copy
      · have h2 : ∃ e ∈ a :: rest, e.loc = l ∧ e.attr = .copy := by
          obtain ⟨e, he, h⟩ := hr; exact ⟨e, List.mem_cons_of_mem _ he, h⟩
        rw [if_pos hr, if_pos h2]
      · rw [if_neg hr]
        by_cases ha : a.attr = .copy
        · rw [if_pos ha]
          by_cases hl : a.loc = l
          · rw [upd, if_pos hl.symm, if_pos ⟨a, List.mem_cons_self .., hl, ha⟩]
          · rw [upd, if_neg fun h => hl h.symm, if_neg]
            rintro ⟨e, he, h1, h2⟩
            rcases List.mem_cons.1 he with rfl | he
            · exact hl h1
            · exact hr ⟨e, he, h1, h2⟩
        · rw [if_neg ha, if_neg]
          rintro ⟨e, he, h1, h2⟩
          rcases List.mem_cons.1 he with rfl | he
          · exact ha h2
          · exact hr ⟨e, he, h1, h2⟩
  refine ⟨fun e he ha => ?_, fun l hl => ?_⟩
  · rw [key, if_pos ⟨e, he, rfl, ha⟩]
  · rw [key, if_neg]
    rintro ⟨e, he, h1, h2⟩
    exact hl e he h1 h2

/-- Non-vacuity: the demo decomposition with the local vectors `(5,7,0)` and `(11,0)`; process 0 owns `0,1`, process 1 owns `2`. -/
example : (List.range 3).map (copyOwnerToAll demoPis (fun p i => (if p = 0 then [5, 7, 0] else [11, 0]).getD i (0 : ℤ))
      (fun p i => (if p = 0 then [5, 7, 0] else [11, 0]).getD i (0 : ℤ)) 0 [1]) = [5, 7, 11] ∧
    (List.range 2).map (copyOwnerToAll demoPis (fun p i => (if p = 0 then [5, 7, 0] else [11, 0]).getD i (0 : ℤ))
      (fun p i => (if p = 0 then [5, 7, 0] else [11, 0]).getD i (0 : ℤ)) 1 [0]) = [11, 7] := by
  constructor <;> decide

/-- `source ≠ dest`: the owner's own entry is *not* copied from `source` to `dest`, so the result is in general not consistent. -/
theorem C36_source_dest_counterexample :
    copyOwnerToAll demoPis (fun _ _ => (1 : ℤ)) (fun _ _ => 0) 0 [1] 0 = 0 ∧
    copyOwnerToAll demoPis (fun _ _ => (1 : ℤ)) (fun _ _ => 0) 0 [1] 2 = 1 := by
  constructor <;> decide

end Par
end Istl
