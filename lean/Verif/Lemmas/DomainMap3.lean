import Verif.Lemmas.DomainMap2
import Verif.Spec.DomainMap
import Verif.Lemmas.ParCoarsen4
import Verif.Lemmas.Redistribute3

/-! # Lemmas: `getDomain` as a whole, `setPartition` -/

namespace Istl
namespace Par
open Amg

theorem getDomain_ok {npes nparts : Nat} {part : Nat → List Nat} (h0 : nparts ≤ npes) (hp : ∀ p, p < npes → ∀ x ∈ part p, x < nparts) :
    ∃ m, DomainMapping npes nparts m ∧ BestMapping npes part m ∧ ∀ me, me < npes → ∃ mine, getDomain npes nparts part me = .ok (mine, m.map some) ∧
      ∀ i, mine = some i ↔ m[i]? = some me ∧ 0 < (part me).count i := by
  set cnt : Nat → Nat → Nat := fun p i => (part p).count i with hcnt
  obtain ⟨mp, as, un, hI, hrun⟩ := domLoop (npes := npes) cnt nparts (le_refl _)
  obtain ⟨mp', as', nf, hfree, hU, hsame, hnew⟩ := freeLoop un 0 mp as hI.used hI.nodup (fun u hu => ((hI.pend u).1 hu).2)
    (by rw [hI.num]; exact h0) (fun j hj => by omega)
  have hall : ∀ i, i < nparts → ∃ j, mp'[i]? = some (some j) := by
    intro i hi
    by_cases hiu : i ∈ un
    · obtain ⟨j, a, _⟩ := hnew i hiu; exact ⟨j, a⟩
    · have hil : i < mp.length := by rw [hI.used.ml]; exact hi
      rw [hsame i hiu]
      cases hx : mp[i] with
      | none => exact absurd ((hI.pend i).2 ⟨hi, by rw [List.getElem?_eq_getElem hil, hx]⟩) hiu
      | some j => exact ⟨j, by rw [List.getElem?_eq_getElem hil, hx]⟩
  obtain ⟨m, hm⟩ : ∃ m : List Nat, mp' = m.map some := by
    refine ⟨(List.range nparts).map fun i => (mp'[i]?.join).getD 0, ?_⟩
    refine List.ext_getElem? fun i => ?_
    by_cases hi : i < nparts
    · obtain ⟨j, hj⟩ := hall i hi
      rw [List.getElem?_map, List.getElem?_map, List.getElem?_range hi, hj]
      simp [hj]
    · rw [List.getElem?_eq_none (by rw [hU.ml]; omega), List.getElem?_eq_none (by simp; omega)]
  have hget : ∀ i j : Nat, m[i]? = some j ↔ mp'[i]? = some (some j) := by
    intro i j
    rw [hm, List.getElem?_map]
    cases m[i]? <;> simp
  have hunas : ∀ j : Nat, as[j]? = some false → ∀ i : Nat, mp[i]? ≠ some (some j) := by
    intro j hj i hi
    have := (hI.used.asg j).2 ⟨i, hi⟩
    rw [hj] at this
    exact absurd (Option.some.inj this) (by decide)
  have hasl : ∀ (j : Nat) (b : Bool), as[j]? = some b → j < npes := fun j b hj => by
    have := (List.getElem?_eq_some_iff.1 hj).1
    rwa [hI.used.al] at this
  -- the domains of the first loop are the ones with vertices on their process
  have hfirst : ∀ i j : Nat, mp'[i]? = some (some j) → (mp[i]? = some (some j) ↔ 0 < cnt j i) := by
    intro i j hi
    constructor
    · exact fun hh => (hI.pref i j hh).1
    · intro hpos
      by_cases hiu : i ∈ un
      · obtain ⟨j', a, b⟩ := hnew i hiu
        rw [hi] at a
        obtain rfl := Option.some.inj (Option.some.inj a)
        have := hI.zero i hiu j (hasl j _ b) (fun i' _ => hunas j b i')
        omega
      · rw [← hsame i hiu]; exact hi
  have hlt : ∀ i j : Nat, mp'[i]? = some (some j) → j < npes := fun i j hi => by
    have := (hU.asg j).2 ⟨i, hi⟩
    have := (List.getElem?_eq_some_iff.1 this).1
    rwa [hU.al] at this
  refine ⟨m, ⟨?_, ?_, ?_⟩, ?_, fun me hme => ?_⟩
  · have := hU.ml; rw [hm, List.length_map] at this; exact this
  · intro w hw
    obtain ⟨i, hi⟩ := List.mem_iff_getElem?.1 hw
    exact hlt i w ((hget i w).1 hi)
  · rw [List.nodup_iff_injective_get]
    intro a b hab
    have ha : m[a.1]? = some (m.get a) := by rw [List.getElem?_eq_getElem a.2]; rfl
    have hb : m[b.1]? = some (m.get b) := by rw [List.getElem?_eq_getElem b.2]; rfl
    rw [← hab] at hb
    exact Fin.ext (hU.inj _ _ _ ((hget _ _).1 ha) ((hget _ _).1 hb))
  · intro i w hi p hp' hprev
    have hi' := (hget i w).1 hi
    have hprev' : ∀ i', i' < i → mp[i']? ≠ some (some p) := by
      intro i' hii hx
      have hiu : i' ∉ un := fun hh => by
        rw [((hI.pend i').1 hh).2] at hx
        exact absurd (Option.some.inj hx) (by simp)
      have hx' : mp'[i']? = some (some p) := by rw [hsame i' hiu]; exact hx
      exact hprev i' p hii ((hget _ _).2 hx') ((hfirst i' p hx').1 hx) rfl
    by_cases hiu : i ∈ un
    · have := hI.zero i hiu p hp' hprev'
      show cnt p i ≤ cnt w i
      omega
    · have hx : mp[i]? = some (some w) := by rw [← hsame i hiu]; exact hi'
      exact (hI.pref i w hx).2 p hp' hprev'
  · obtain ⟨mine, e, hmine⟩ := hrun me
    refine ⟨mine, ?_, fun i => ?_⟩
    · unfold getDomain
      have hrows : (List.range npes).mapM (fun p => countDomains nparts (part p)) =
          Res.ok ((List.range npes).map fun p => (List.range nparts).map fun i => cnt p i) :=
        mapM_ok _ _ _ fun p hpm => countDomains_ok (hp p (List.mem_range.1 hpm))
      rw [hrows, Res.ok_bind, domainMatrix_ok _ hme, Res.ok_bind]
      have hM : ((List.range npes).map fun j => some (((List.range npes).map fun p => (List.range nparts).map fun i => cnt p i).getD j [])) =
          cntMatrix npes nparts cnt := by
        refine List.map_congr_left fun j hj => ?_
        rw [List.getD_eq_getElem?_getD, List.getElem?_map, List.getElem?_range (List.mem_range.1 hj)]
        rfl
      rw [hM, e, Res.ok_bind]
      dsimp only
      rw [hfree mine un, Res.ok_bind, hm]
    · rw [hmine, hget]
      constructor
      · intro hx
        have hiu : i ∉ un := fun hh => by
          rw [((hI.pend i).1 hh).2] at hx
          exact absurd (Option.some.inj hx) (by simp)
        have hx' : mp'[i]? = some (some me) := by rw [hsame i hiu]; exact hx
        exact ⟨hx', (hfirst i me hx').1 hx⟩
      · rintro ⟨a, b⟩
        exact (hfirst i me a).2 b

/-! ## `setPartition` -/

theorem setFold {part m : List Nat} : ∀ (A : PIS) (k : Nat) (v : List (Option Nat)), (A.map fun e => e.loc).Nodup →
    (∀ e ∈ A, e.loc < v.length) → k + owners A ≤ part.length → (∀ x ∈ part, x < m.length) →
    ∃ v', A.foldlM (setStep part (m.map some)) (k, v) = Res.ok (k + owners A, v') ∧ v'.length = v.length ∧
      (∀ (j : Nat) e, (A.filter fun e => e.attr = .owner)[j]? = some e → ∃ d w, part[k + j]? = some d ∧ m[d]? = some w ∧ v'[e.loc]? = some (some w)) ∧
      ∀ i : Nat, (∀ e ∈ A, e.attr = .owner → e.loc ≠ i) → v'[i]? = v[i]? := by
  intro A
  induction A with
  | nil => intro k v _ _ _ _; exact ⟨v, rfl, rfl, by simp, fun _ _ => rfl⟩
  | cons e A ih =>
    intro k v hnd hb hk hx
    rw [List.map_cons, List.nodup_cons] at hnd
    have hnot : ∀ f ∈ A, f.loc ≠ e.loc := fun f hf hh => hnd.1 (List.mem_map.2 ⟨f, hf, hh⟩)
    by_cases ha : e.attr = .owner
    · have hown : owners (e :: A) = owners A + 1 := by
        unfold owners; rw [List.filter_cons_of_pos (by simpa using ha), List.length_cons]
      have hkl : k < part.length := by omega
      have hdl : part[k] < (m.map some).length := by rw [List.length_map]; exact hx _ (List.getElem_mem hkl)
      have hdl' : part[k] < m.length := by simpa using hdl
      have hel := hb e (List.mem_cons_self ..)
      obtain ⟨v', h1, h2, h3, h4⟩ := ih (k + 1) (v.set e.loc (some m[part[k]])) hnd.2
        (fun f hf => by rw [List.length_set]; exact hb f (List.mem_cons_of_mem _ hf)) (by omega) hx
      refine ⟨v', ?_, by rw [h2, List.length_set], ?_, ?_⟩
      · rw [List.foldlM_cons]
        unfold setStep
        rw [if_pos ha]
        dsimp only
        rw [rd_lt hkl, Res.ok_bind, rd_lt hdl, Res.ok_bind, wr_lt _ hel, Res.ok_bind, Res.ok_bind, List.getElem_map]
        have : k + owners (e :: A) = k + 1 + owners A := by omega
        rw [this]
        exact h1
      · intro j f hf
        rw [List.filter_cons_of_pos (by simpa using ha)] at hf
        cases j with
        | zero =>
          rw [List.getElem?_cons_zero] at hf
          obtain rfl := Option.some.inj hf
          refine ⟨part[k], m[part[k]], by rw [Nat.add_zero, List.getElem?_eq_getElem hkl], List.getElem?_eq_getElem hdl', ?_⟩
          rw [h4 e.loc fun f hf _ => hnot f hf, List.getElem?_set_self hel]
        | succ j =>
          rw [List.getElem?_cons_succ] at hf
          obtain ⟨d, w, a, b, c⟩ := h3 j f hf
          exact ⟨d, w, by rw [← a]; congr 1; omega, b, c⟩
      · intro i hi
        rw [h4 i fun f hf haf => hi f (List.mem_cons_of_mem _ hf) haf, List.getElem?_set_ne (hi e (List.mem_cons_self ..) ha)]
    · have hown : owners (e :: A) = owners A := by
        unfold owners; rw [List.filter_cons_of_neg (by simpa using ha)]
      obtain ⟨v', h1, h2, h3, h4⟩ := ih k v hnd.2 (fun f hf => hb f (List.mem_cons_of_mem _ hf)) (by omega) hx
      refine ⟨v', ?_, h2, ?_, fun i hi => h4 i fun f hf haf => hi f (List.mem_cons_of_mem _ hf) haf⟩
      · rw [List.foldlM_cons]
        unfold setStep
        rw [if_neg ha, Res.ok_bind, hown]
        exact h1
      · intro j f hf
        rw [List.filter_cons_of_neg (by simpa using ha)] at hf
        exact h3 j f hf

theorem numOwn_owners (A : PIS) : numOwn A = owners A := numOwn_eq A

variable {P : Nat} {pis : Nat → PIS} {n : Nat → Nat} {G : Finset Nat}

theorem entry_eq (h : Decomp P pis n G) {p : Nat} (hp : p < P) {e f : Idx} (he : e ∈ pis p) (hf : f ∈ pis p) (hg : e.g = f.g) : e = f := by
  have a := (lookup_iff (h.ok p hp) f.g e).2 ⟨he, hg⟩
  have b := (lookup_iff (h.ok p hp) f.g f).2 ⟨hf, rfl⟩
  rw [a] at b
  exact Option.some.inj b

/-- The processes that the owned indices are mapped to are a function of the global index. -/
theorem exists_inOrder (h : Decomp P pis n G) {part : Nat → List Nat} {m : List Nat} (hl : ∀ p, p < P → (part p).length = owners (pis p))
    (hx : ∀ p, p < P → ∀ x ∈ part p, x < m.length) : ∃ W, InOrder P pis part m W := by
  classical
  have hex : ∀ g, ∃ w, ∀ p, p < P → ∀ (j : Nat) e, ((pis p).filter fun e => e.attr = .owner)[j]? = some e → e.g = g →
      ∃ d, (part p)[j]? = some d ∧ m[d]? = some w := by
    intro g
    by_cases hg : ∃ p, p < P ∧ ∃ (j : Nat) (e : Idx), ((pis p).filter fun e => e.attr = .owner)[j]? = some e ∧ e.g = g
    · obtain ⟨p, hp, j, e, hj, hge⟩ := hg
      have hjl : j < (part p).length := by rw [hl p hp]; exact (List.getElem?_eq_some_iff.1 hj).1
      have hdl := hx p hp _ (List.getElem_mem hjl)
      refine ⟨m[(part p)[j]], fun q hq i f hi hgf => ?_⟩
      have he := List.mem_filter.1 (List.mem_of_getElem? hj)
      have hf := List.mem_filter.1 (List.mem_of_getElem? hi)
      have hqp := h.unique q p hq hp f hf.1 e he.1 (by simpa using hf.2) (by simpa using he.2) (by rw [hgf, hge])
      subst hqp
      have hef := entry_eq h hq hf.1 he.1 (by rw [hgf, hge])
      subst hef
      have hnd : ((pis q).filter fun e => e.attr = .owner).Nodup := ((h.ok q hq).locs.of_map).filter _
      have hij : i = j := by
        obtain ⟨a, b⟩ := List.getElem?_eq_some_iff.1 hi
        obtain ⟨c, d⟩ := List.getElem?_eq_some_iff.1 hj
        exact (List.Nodup.getElem_inj_iff hnd).1 (b.trans d.symm)
      subst hij
      exact ⟨_, List.getElem?_eq_getElem hjl, List.getElem?_eq_getElem hdl⟩
    · exact ⟨0, fun p hp j e hj hge => absurd ⟨p, hp, j, e, hj, hge⟩ hg⟩
  choose W hW using hex
  refine ⟨W, fun p hp => ?_⟩
  refine List.ext_getElem? fun j => ?_
  rw [List.getElem?_map, List.getElem?_map]
  cases hj : ((pis p).filter fun e => e.attr = .owner)[j]? with
  | none =>
    have : (part p)[j]? = none := by
      rw [List.getElem?_eq_none_iff] at hj ⊢
      rw [hl p hp]; exact hj
    rw [this]; rfl
  | some e =>
    obtain ⟨d, a, b⟩ := hW e.g p hp j e hj rfl
    rw [a, Option.map_some, Option.map_some, b]

end Par
end Istl
