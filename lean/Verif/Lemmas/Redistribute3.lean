import Verif.Lemmas.Redistribute2
import Verif.Lemmas.ParGalerkin3
import Verif.Spec.Redistribute

/-! # Lemmas: redistribution of matrices, the whole call -/

namespace Istl
namespace Par
open Amg MatMat

variable {B : Type}

theorem decomp_length {P : Nat} {pis : Nat → PIS} {sz : Nat → Nat} {G : Finset Nat} (hD : Decomp P pis sz G) {p : Nat} (hp : p < P) :
    (pis p).length = sz p := by
  have h : ((pis p).map fun e => e.loc).Perm (List.range (sz p)) := by
    refine (List.perm_ext_iff_of_nodup (hD.ok p hp).locs List.nodup_range).2 fun i => ?_
    rw [List.mem_map, List.mem_range]
    constructor
    · rintro ⟨e, he, rfl⟩; exact hD.bounded p hp e he
    · intro hi
      obtain ⟨e, he, h⟩ := hD.covered p hp i hi
      exact ⟨e, he, h⟩
  have := h.length_eq
  simpa using this

/-- The global index sent for a column. -/
def sentG (gmax : Nat) (pis : PIS) (c : Nat) : Nat :=
  match pairOf pis c with
  | none => gmax
  | some e => if e.attr ≠ .overlap then e.g else gmax

theorem sendGlobal_ok {gmax : Nat} {pis : PIS} {c : Nat} (h : ∃ f ∈ pis, f.loc = c) : sendGlobal gmax pis c = .ok (sentG gmax pis c) := by
  unfold sendGlobal sentG
  cases hp : pairOf pis c with
  | none =>
    obtain ⟨f, hf, hl⟩ := h
    exact absurd hl (pairOf_none.1 hp f hf)
  | some e => rfl

theorem sentG_iff {gmax : Nat} {pis : PIS} (hA : PisOk pis) {c g : Nat} (hg : g ≠ gmax) :
    sentG gmax pis c = g ↔ ∃ f ∈ pis, f.loc = c ∧ f.g = g ∧ f.attr ≠ .overlap := by
  unfold sentG
  cases hp : pairOf pis c with
  | none =>
    dsimp only
    constructor
    · intro h; exact absurd h.symm hg
    · rintro ⟨f, hf, hl, _⟩
      exact absurd hl (pairOf_none.1 hp f hf)
  | some e =>
    obtain ⟨h1, h2⟩ := (pairOf_some hA).1 hp
    dsimp only
    constructor
    · intro h
      by_cases ha : e.attr = .overlap
      · rw [if_neg (by simpa using ha)] at h; exact absurd h.symm hg
      · rw [if_pos ha] at h; exact ⟨e, h1, h2, h, ha⟩
    · rintro ⟨f, hf, hl, rfl, ha⟩
      rw [idx_eq_of_loc hA hf h1 (hl.trans h2.symm)] at ha ⊢
      rw [if_pos ha]

namespace Setting
variable {P : Nat} {old new : Nat → PIS} {osz nsz : Nat → Nat} {G : Finset Nat} {gmax : Nat} {A : Nat → SpMat B}

theorem colKnown (h : Setting P old new osz nsz G gmax A) {p : Nat} (hp : p < P) {e : Idx} (he : e ∈ old p) {x : Nat × B}
    (hx : x ∈ (A p).row e.loc) : ∃ f ∈ old p, f.loc = x.1 := by
  refine h.dold.covered p hp x.1 ?_
  rw [← h.cols p hp]
  exact ((h.wf p hp) e.loc (by rw [h.rows p hp]; exact h.dold.bounded p hp e he)).2 x hx

theorem rowSizes (h : Setting P old new osz nsz G gmax A) {q : Nat} (hq : q < P) (order : List Nat) (hord : order.Perm (List.range P)) :
    ∀ p, p < P → ∀ e ∈ recvIdx isOwner isOwner (new q) (old p),
      newRowSizes old new A q order e.loc = (valueAt (V := List (Nat × B)) (old p) (A p).row e.g).length := by
  intro p hp e he
  obtain ⟨h1, h2, r, h3, h4, h5⟩ := (mem_recvIdx (h.dold.ok p hp)).1 he
  have := (redistributeOn_spec h.dold.ok h.dold.unique (fun p i => ((A p).row i).length) (fun _ => 0) (h.dnew.ok q hq) order hord).1
    p hp e h1 (isOwner_iff.1 h2) r h3 (isOwner_iff.1 h5) h4
  unfold newRowSizes
  rw [this]
  simp only [valueAt, (lookup_iff (h.dold.ok p hp) e.g r).2 ⟨h3, h4⟩]

/-- The records of the pattern and of the values. -/
def recP (old new : Nat → PIS) (gmax : Nat) (A : Nat → SpMat B) (q : Nat) (order : List Nat) : List (Nat × Nat) :=
  records old new A (fun p x => sentG gmax (old p) x.1) q order
def recV (old new : Nat → PIS) (gmax : Nat) (A : Nat → SpMat B) (q : Nat) (order : List Nat) : List (Nat × Nat × B) :=
  records old new A (fun p x => (sentG gmax (old p) x.1, x.2)) q order

theorem patComm (h : Setting P old new osz nsz G gmax A) {q : Nat} (hq : q < P) {S : Type} (scat : S → Nat → Nat → Res S) (o1 o2 : List Nat)
    (h1 : o1.Perm (List.range P)) (h2 : o2.Perm (List.range P)) (s : S) :
    redistributeVar old new (fun p => gatherPat gmax (old p) (A p)) (fun p i => ((A p).row i).length) scat
      (newRowSizes old new A q o1) q o2 s = (recP old new gmax A q o2).foldlM (fun s d => scat s d.2 d.1) s := by
  refine redistributeVar_eq (P := P) h.dold.ok (h.dnew.ok q hq) A _ (fun p x => sendGlobal gmax (old p) x.1)
    (fun p x => sentG gmax (old p) x.1) ?_ ?_ scat _ (h.rowSizes hq o1 h1) o2 (fun p hp => List.mem_range.1 (h2.mem_iff.1 hp)) s
  · intro p i j e he
    unfold gatherPat
    rw [he]
  · intro p hp e he _ x hx
    exact sendGlobal_ok (h.colKnown hp he hx)

theorem valComm (h : Setting P old new osz nsz G gmax A) {q : Nat} (hq : q < P) {S : Type} (scat : S → Nat × B → Nat → Res S)
    (o1 o2 : List Nat) (h1 : o1.Perm (List.range P)) (h2 : o2.Perm (List.range P)) (s : S) :
    redistributeVar old new (fun p => gatherVal gmax (old p) (A p)) (fun p i => ((A p).row i).length) scat
      (newRowSizes old new A q o1) q o2 s = (recV old new gmax A q o2).foldlM (fun s d => scat s d.2 d.1) s := by
  refine redistributeVar_eq (P := P) h.dold.ok (h.dnew.ok q hq) A _
    (fun p x => sendGlobal gmax (old p) x.1 >>= fun g => .ok (g, x.2))
    (fun p x => (sentG gmax (old p) x.1, x.2)) ?_ ?_ scat _ (h.rowSizes hq o1 h1) o2 (fun p hp => List.mem_range.1 (h2.mem_iff.1 hp)) s
  · intro p i j e he
    unfold gatherVal
    rw [he]
  · intro p hp e he _ x hx
    rw [sendGlobal_ok (h.colKnown hp he hx), Res.ok_bind]

theorem oldOwner (h : Setting P old new osz nsz G gmax A) {q : Nat} (hq : q < P) {e : Idx} (he : e ∈ new q) :
    ∃ p, p < P ∧ ∃ e0 ∈ old p, e0.g = e.g ∧ e0.attr = .owner := h.dold.owned e.g (h.dnew.inG q hq e he)

theorem sent_unique (h : Setting P old new osz nsz G gmax A) {p : Nat} (hp : p < P) {e0 f : Idx} (he : e0 ∈ old p) {b b' : B}
    (h1 : Sent (old p) (A p) e0 f b) (h2 : Sent (old p) (A p) e0 f b') : b = b' := by
  obtain ⟨f1, a1, a2, _, a3⟩ := h1
  obtain ⟨f2, b1, b2, _, b3⟩ := h2
  rw [idx_eq_of_g (h.dold.ok p hp) b1 a1 (b2.trans a2.symm)] at b3
  have hasc := ((h.wf p hp) e0.loc (by rw [h.rows p hp]; exact h.dold.bounded p hp e0 he)).1
  exact Row.Asc.unique hasc a3 b3

/-- Records that give a position of an owned row. -/
theorem mem_recV (h : Setting P old new osz nsz G gmax A) {q : Nat} (hq : q < P) (o : List Nat) (ho : o.Perm (List.range P))
    {p : Nat} (hp : p < P) {e : Idx} (he : e ∈ new q) (ha : e.attr = .owner) {e0 : Idx} (he0 : e0 ∈ old p) (hg : e0.g = e.g)
    (ha0 : e0.attr = .owner) {f : Idx} (hf : f ∈ new q) (b : B) :
    (e.loc, f.g, b) ∈ recV old new gmax A q o ↔ Sent (old p) (A p) e0 f b := by
  have hfg : f.g ≠ gmax := fun hh => h.gfree (hh ▸ h.dnew.inG q hq f hf)
  unfold recV
  rw [mem_records h.dold.ok A _ o ho]
  constructor
  · rintro ⟨p', hp', e', he', ha', e0', he0', hg', ha0', x, hx, heq⟩
    simp only [Prod.mk.injEq] at heq
    obtain ⟨r1, r2, r3⟩ := heq
    have hee : e' = e := idx_eq_of_loc (h.dnew.ok q hq) he' he r1.symm
    subst hee
    have hpp : p' = p := h.dold.unique p' p hp' hp e0' he0' e0 he0 ha0' ha0 (hg'.trans hg.symm)
    subst hpp
    have : e0' = e0 := idx_eq_of_g (h.dold.ok p' hp') he0' he0 (hg'.trans hg.symm)
    subst this
    obtain ⟨f0, c1, c2, c3, c4⟩ := (sentG_iff (h.dold.ok p' hp') hfg).1 r2.symm
    refine ⟨f0, c1, c3, c4, ?_⟩
    rw [c2, r3]
    exact hx
  · rintro ⟨f0, c1, c2, c3, c4⟩
    refine ⟨p, hp, e, he, ha, e0, he0, hg, ha0, _, c4, ?_⟩
    simp only [Prod.mk.injEq, true_and, and_true]
    exact ((sentG_iff (h.dold.ok p hp) hfg).2 ⟨f0, c1, rfl, c2, c3⟩).symm

theorem recP_iff (h : Setting P old new osz nsz G gmax A) {q : Nat} (o o' : List Nat) (ho : o.Perm (List.range P))
    (ho' : o'.Perm (List.range P)) (i g : Nat) : (i, g) ∈ recP old new gmax A q o ↔ ∃ b, (i, g, b) ∈ recV old new gmax A q o' := by
  unfold recP recV
  rw [mem_records h.dold.ok A _ o ho]
  constructor
  · rintro ⟨p, hp, e, he, ha, e0, h1, h2, h3, x, hx, heq⟩
    simp only [Prod.mk.injEq] at heq
    exact ⟨x.2, (mem_records h.dold.ok A _ o' ho' _).2 ⟨p, hp, e, he, ha, e0, h1, h2, h3, x, hx, by rw [heq.1, heq.2]⟩⟩
  · rintro ⟨b, hb⟩
    obtain ⟨p, hp, e, he, ha, e0, h1, h2, h3, x, hx, heq⟩ := (mem_records h.dold.ok A _ o' ho' _).1 hb
    simp only [Prod.mk.injEq] at heq
    exact ⟨p, hp, e, he, ha, e0, h1, h2, h3, x, hx, by rw [heq.1, heq.2.1]⟩

/-- The records belong to owned rows. -/
theorem rec_owner (h : Setting P old new osz nsz G gmax A) {q : Nat} (o : List Nat) (ho : o.Perm (List.range P)) {d : Nat × Nat × B}
    (hd : d ∈ recV old new gmax A q o) : ∃ e ∈ new q, e.attr = .owner ∧ d.1 = e.loc := by
  obtain ⟨p, hp, e, he, ha, e0, h1, h2, h3, x, hx, rfl⟩ := (mem_records h.dold.ok A _ o ho _).1 hd
  exact ⟨e, he, ha, rfl⟩

end Setting

end Par
end Istl
