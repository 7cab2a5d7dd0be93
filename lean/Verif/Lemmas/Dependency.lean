import Verif.Spec.Dependency
import Verif.Lemmas.Row
import Verif.Lemmas.MatrixGraph
import Verif.Lemmas.Vec
import Mathlib.Tactic.FieldSimp
import Mathlib.Tactic.Ring

/-!
# Lemmas about `buildDependency`
-/

namespace Istl
namespace Amg

variable {B R : Type}

/-- The off-diagonal part of a row. -/
def offDiag (v : Nat) (l : List (Nat × B)) : List (Nat × B) := l.filter (fun e => e.1 ≠ v)

theorem mem_offDiag {v : Nat} {l : List (Nat × B)} {e : Nat × B} : e ∈ offDiag v l ↔ e ∈ l ∧ e.1 ≠ v := by
  simp [offDiag]

/-- `P'` is `P` with the flags of four sets added. -/
structure Adds (P P' : Props) (I X : Nat → Prop) (D F : Nat → Nat → Prop) : Prop where
  iso : ∀ u, P'.isolated u = true ↔ P.isolated u = true ∨ I u
  exc : ∀ u, P'.excluded u = true ↔ P.excluded u = true ∨ X u
  dep : ∀ a b, P'.dep a b = true ↔ P.dep a b = true ∨ D a b
  infl : ∀ a b, P'.infl a b = true ↔ P.infl a b = true ∨ F a b

theorem Adds.trans {P P' P'' : Props} {I X I' X' : Nat → Prop} {D F D' F' : Nat → Nat → Prop} (h : Adds P P' I X D F)
    (h' : Adds P' P'' I' X' D' F') :
    Adds P P'' (fun u => I u ∨ I' u) (fun u => X u ∨ X' u) (fun a b => D a b ∨ D' a b) (fun a b => F a b ∨ F' a b) := by
  constructor
  · intro u; rw [h'.iso, h.iso, or_assoc]
  · intro u; rw [h'.exc, h.exc, or_assoc]
  · intro a b; rw [h'.dep, h.dep, or_assoc]
  · intro a b; rw [h'.infl, h.infl, or_assoc]

theorem Adds.congr {P P' : Props} {I X I' X' : Nat → Prop} {D F D' F' : Nat → Nat → Prop} (h : Adds P P' I X D F)
    (hI : ∀ u, I u ↔ I' u) (hX : ∀ u, X u ↔ X' u) (hD : ∀ a b, D a b ↔ D' a b) (hF : ∀ a b, F a b ↔ F' a b) :
    Adds P P' I' X' D' F' := by
  constructor
  · intro u; rw [h.iso, hI]
  · intro u; rw [h.exc, hX]
  · intro a b; rw [h.dep, hD]
  · intro a b; rw [h.infl, hF]

theorem Adds.refl (P : Props) : Adds P P (fun _ => False) (fun _ => False) (fun _ _ => False) (fun _ _ => False) := by
  constructor <;> simp

theorem adds_setBoth (P : Props) (s t : Nat) : Adds P (P.setBoth s t) (fun _ => False) (fun _ => False)
    (fun a b => a = s ∧ b = t) (fun a b => a = s ∧ b = t) := by
  constructor
  · simp [Props.setBoth, Props.setDep, Props.setInfl]
  · simp [Props.setBoth, Props.setDep, Props.setInfl]
  · intro a b
    simp only [Props.setBoth, Props.setDep, Props.setInfl]
    by_cases h : a = s ∧ b = t <;> simp [h]
  · intro a b
    simp only [Props.setBoth, Props.setDep, Props.setInfl]
    by_cases h : a = s ∧ b = t <;> simp [h]

theorem adds_setDep (P : Props) (s t : Nat) : Adds P (P.setDep s t) (fun _ => False) (fun _ => False)
    (fun a b => a = s ∧ b = t) (fun _ _ => False) := by
  constructor
  · simp [Props.setDep]
  · simp [Props.setDep]
  · intro a b
    simp only [Props.setDep]
    by_cases h : a = s ∧ b = t <;> simp [h]
  · simp [Props.setDep]

theorem adds_setInfl (P : Props) (s t : Nat) : Adds P (P.setInfl s t) (fun _ => False) (fun _ => False)
    (fun _ _ => False) (fun a b => a = s ∧ b = t) := by
  constructor
  · simp [Props.setInfl]
  · simp [Props.setInfl]
  · simp [Props.setInfl]
  · intro a b
    simp only [Props.setInfl]
    by_cases h : a = s ∧ b = t <;> simp [h]

/-- A fold of steps that add flags. -/
theorem adds_fold (f : Props → Nat × B → Props) (D F : Nat × B → Nat → Nat → Prop)
    (l : List (Nat × B)) (hf : ∀ e ∈ l, ∀ P, Adds P (f P e) (fun _ => False) (fun _ => False) (D e) (F e)) : ∀ (P : Props),
    Adds P (l.foldl f P) (fun _ => False) (fun _ => False) (fun a b => ∃ e ∈ l, D e a b) (fun a b => ∃ e ∈ l, F e a b) := by
  induction l with
  | nil => intro P; simpa using Adds.refl P
  | cons e r ih =>
    intro P
    have h1 := (hf e (by simp) P).trans (ih (fun e he => hf e (by simp [he])) (f P e))
    refine h1.congr ?_ ?_ ?_ ?_ <;> simp

section
variable [Field R] [LinearOrder R]

/-- The first pass is a fold over the off-diagonal entries. -/
theorem firstPass_fold (C : Criterion B R) (frob : B → R) (A : SpMat B) (v : Nat) (first : Bool) :
    ∀ (l : List (Nat × B)) (s st : CritSt R) (x : R), (offDiag v l).foldlM (fun s e => C.examine A e s) s = .ok st →
      firstPass C frob A v first l (s, x) =
        .ok (st, if first then ((offDiag v l).map fun e => frob e.2).foldl max x else x) := by
  intro l
  induction l with
  | nil => intro s st x h; simp [offDiag] at h; subst h; simp [firstPass, offDiag]
  | cons e r ih =>
    intro s st x h
    unfold firstPass
    by_cases hv : e.1 = v
    · have : offDiag v (e :: r) = offDiag v r := by simp [offDiag, hv]
      rw [this] at h ⊢
      rw [if_neg (by simpa using hv)]
      exact ih s st x h
    · have : offDiag v (e :: r) = e :: offDiag v r := by simp [offDiag, hv]
      rw [this] at h ⊢
      rw [if_pos hv]
      rw [List.foldlM_cons, Res.bind_eq_ok] at h
      obtain ⟨s', h1, h2⟩ := h
      dsimp only
      rw [h1, Res.ok_bind, ih s' st _ h2]
      cases first <;> simp

theorem seekCol_ne {t : Nat} {e : Nat × B} {r : List (Nat × B)} (h : e.1 ≠ t) : seekCol t (e :: r) = seekCol t r := by
  simp [seekCol, h]

/-- The second pass is a fold over the off-diagonal entries. -/
theorem edgeWalk_fold (C : Criterion B R) (A : SpMat B) (v : Nat) :
    ∀ (l : List (Nat × B)) (s : CritSt R × Props),
      edgeWalk C A v ((offDiag v l).map Prod.fst) l s = (offDiag v l).foldlM (fun s e => C.examineEdge A (v, e.1) e s) s := by
  intro l
  induction l with
  | nil => intro s; simp [offDiag, edgeWalk]
  | cons e r ih =>
    intro s
    by_cases hv : e.1 = v
    · have : offDiag v (e :: r) = offDiag v r := by simp [offDiag, hv]
      rw [this, ← ih s]
      cases hm : offDiag v r with
      | nil => simp [edgeWalk]
      | cons e' r' =>
        have he' : e'.1 ≠ v := (mem_offDiag.mp (show e' ∈ offDiag v r by rw [hm]; simp)).2
        simp only [List.map_cons]
        unfold edgeWalk
        rw [seekCol_ne (by rw [hv]; exact fun h => he' h.symm)]
    · have : offDiag v (e :: r) = e :: offDiag v r := by simp [offDiag, hv]
      rw [this]
      simp only [List.map_cons, List.foldlM_cons]
      unfold edgeWalk
      simp only [seekCol, if_true, Res.ok_bind]
      congr 1
      funext s'
      exact ih s'

theorem targets_offDiag (A : SpMat B) (v : Nat) (h : (A.row v).Asc) :
    (matrixEdges A v).map Prod.fst = (offDiag v (A.row v)).map Prod.fst := by
  rw [matrixEdges_targets A v h, List.filter_map]
  rfl

/-- The vertices of a level all handled by steps that add flags. -/
theorem depLoop_adds (C : Criterion B R) (frob : B → R) (A : SpMat B) (first : Bool) (I X : Nat → Nat → Prop)
    (D F : Nat → Nat → Nat → Prop) (vs : List Nat)
    (h : ∀ v ∈ vs, ∀ P, ∃ P', depVertex C frob A first v P = .ok P' ∧ Adds P P' (I v) (X v) (D v) (F v)) :
    ∀ P, ∃ P', depLoop C frob A first vs P = .ok P' ∧
      Adds P P' (fun u => ∃ v ∈ vs, I v u) (fun u => ∃ v ∈ vs, X v u) (fun a b => ∃ v ∈ vs, D v a b) (fun a b => ∃ v ∈ vs, F v a b) := by
  induction vs with
  | nil => intro P; exact ⟨P, rfl, by simpa using Adds.refl P⟩
  | cons v r ih =>
    intro P
    obtain ⟨P1, e1, h1⟩ := h v (by simp) P
    obtain ⟨P2, e2, h2⟩ := ih (fun v hv => h v (by simp [hv])) P1
    refine ⟨P2, ?_, ?_⟩
    · unfold depLoop; rw [e1, Res.ok_bind, e2]
    · refine (h1.trans h2).congr ?_ ?_ ?_ ?_ <;> simp

/-- What a vertex does when the two passes are known. -/
theorem depVertex_of (C : Criterion B R) (frob : B → R) (A : SpMat B) (first : Bool) (v : Nat) (hasc : (A.row v).Asc)
    (s0 s1 s2 : CritSt R) (iso : Bool) (f : Props → Nat × B → Props) (h0 : C.initRow A v = .ok s0)
    (h1 : (offDiag v (A.row v)).foldlM (fun s e => C.examine A e s) s0 = .ok s1)
    (h2 : C.isIsolated s1 = .ok (iso, s2))
    (h3 : iso = false → ∀ P, ∃ s3, (offDiag v (A.row v)).foldlM (fun s e => C.examineEdge A (v, e.1) e s) (s2, P) =
      .ok (s3, (offDiag v (A.row v)).foldl f P))
    (D F : Nat × B → Nat → Nat → Prop)
    (hf : ∀ e ∈ offDiag v (A.row v), ∀ P, Adds P (f P e) (fun _ => False) (fun _ => False) (D e) (F e)) (P : Props) :
    ∃ P', depVertex C frob A first v P = .ok P' ∧ Adds P P' (fun u => u = v ∧ iso = true)
      (fun u => u = v ∧ first = true ∧ ((offDiag v (A.row v)).map fun e => frob e.2).foldl max 0 = 0)
      (fun a b => iso = false ∧ ∃ e ∈ offDiag v (A.row v), D e a b) (fun a b => iso = false ∧ ∃ e ∈ offDiag v (A.row v), F e a b) := by
  have hb : ∀ x : R, Adds P (markBorder first v x P) (fun _ => False) (fun u => u = v ∧ first = true ∧ x = 0)
      (fun _ _ => False) (fun _ _ => False) := by
    intro x
    unfold markBorder
    split
    · rename_i hx
      constructor
      · simp
      · intro u
        simp only [upd]
        by_cases hu : u = v <;> simp [hu, hx.1, hx.2]
      · simp
      · simp
    · rename_i hx
      constructor
      · simp
      · intro u
        rw [iff_comm, or_iff_left]
        rintro ⟨_, hh⟩
        exact hx hh
      · simp
      · simp
  unfold depVertex
  rw [h0, Res.ok_bind, firstPass_fold C frob A v first _ _ _ _ h1]
  simp only [Res.ok_bind, h2]
  have hx : (if first = true then ((offDiag v (A.row v)).map fun e => frob e.2).foldl max 0 else (0 : R)) = 0 ∧ first = true ↔
      first = true ∧ ((offDiag v (A.row v)).map fun e => frob e.2).foldl max 0 = 0 := by
    cases first <;> simp
  generalize (if first = true then ((offDiag v (A.row v)).map fun e => frob e.2).foldl max 0 else (0 : R)) = x at hx
  have hb := hb x
  generalize markBorder first v x P = Q at hb
  cases iso with
  | true =>
    refine ⟨_, if_pos rfl, ?_⟩
    constructor
    · intro u
      simp only [upd]
      by_cases hu : u = v
      · simp [hu]
      · have := hb.iso u
        simpa [hu] using this
    · intro u
      have := hb.exc u
      dsimp only
      rw [this, ← hx, and_comm (a := x = 0)]
    · intro a b
      have := hb.dep a b
      simpa using this
    · intro a b
      have := hb.infl a b
      simpa using this
  | false =>
    obtain ⟨s3, e3⟩ := h3 rfl Q
    rw [if_neg (by simp), targets_offDiag A v hasc, edgeWalk_fold, e3, Res.ok_bind]
    refine ⟨_, rfl, ?_⟩
    refine (hb.trans (adds_fold f D F _ hf Q)).congr ?_ ?_ ?_ ?_
    · intro u; simp
    · intro u
      simp only [or_false]
      rw [← hx, and_comm (a := x = 0)]
    · intro a b; simp
    · intro a b; simp

/-! ## Maxima -/

theorem foldl_max_isMax (lo : R) (c : Nat × B → Bool) (g : Nat × B → R) : ∀ (l : List (Nat × B)),
    IsMaxFrom lo {x | ∃ e ∈ l, c e = true ∧ x = g e} (l.foldl (fun m e => if c e = true then max m (g e) else m) lo) := by
  intro l
  induction l using List.reverseRecOn with
  | nil => exact ⟨le_refl _, by simp, Or.inl rfl⟩
  | append_singleton r e ih =>
    rw [List.foldl_append]
    simp only [List.foldl_cons, List.foldl_nil]
    obtain ⟨h1, h2, h3⟩ := ih
    by_cases hc : c e = true
    · rw [if_pos hc]
      refine ⟨le_trans h1 (le_max_left _ _), ?_, ?_⟩
      · rintro s ⟨e', he', hc', rfl⟩
        rcases List.mem_append.mp he' with h | h
        · exact le_trans (h2 _ ⟨e', h, hc', rfl⟩) (le_max_left _ _)
        · simp at h; subst h; exact le_max_right _ _
      · rcases max_choice (r.foldl (fun m e => if c e = true then max m (g e) else m) lo) (g e) with h | h
        · rw [h]
          rcases h3 with h3 | ⟨e', he', hc', hx⟩
          · exact Or.inl h3
          · exact Or.inr ⟨e', by simp [he'], hc', hx⟩
        · rw [h]; exact Or.inr ⟨e, by simp, hc, rfl⟩
    · rw [if_neg hc]
      refine ⟨h1, ?_, ?_⟩
      · rintro s ⟨e', he', hc', rfl⟩
        rcases List.mem_append.mp he' with h | h
        · exact h2 _ ⟨e', h, hc', rfl⟩
        · simp at h; subst h; exact absurd hc' hc
      · rcases h3 with h3 | ⟨e', he', hc', hx⟩
        · exact Or.inl h3
        · exact Or.inr ⟨e', by simp [he'], hc', hx⟩

theorem foldl_max_zero (g : Nat × B → R) (l : List (Nat × B)) (hg : ∀ e ∈ l, 0 ≤ g e) :
    (l.map g).foldl max 0 = 0 ↔ ∀ e ∈ l, g e = 0 := by
  have h := foldl_max_isMax (B := B) 0 (fun _ => true) g l
  simp only [if_true] at h
  rw [List.foldl_map]
  constructor
  · intro h0 e he
    rw [h0] at h
    exact le_antisymm (h.2.1 _ ⟨e, he, trivial, rfl⟩) (hg e he)
  · intro h0
    rcases h.2.2 with h1 | ⟨e, he, _, h1⟩
    · exact h1
    · rw [h1]; exact h0 e he

theorem IsMaxFrom.unique {lo : R} {S : Set R} {M M' : R} (h : IsMaxFrom lo S M) (h' : IsMaxFrom lo S M') : M = M' := by
  obtain ⟨a1, a2, a3⟩ := h
  obtain ⟨b1, b2, b3⟩ := h'
  apply le_antisymm
  · rcases a3 with h | h
    · rw [h]; exact b1
    · exact b2 _ h
  · rcases b3 with h | h
    · rw [h]; exact a1
    · exact a2 _ h

end

end Amg
end Istl
