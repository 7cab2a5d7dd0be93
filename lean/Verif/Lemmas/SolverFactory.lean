import Verif.Spec.SolverFactory
import Verif.Lemmas.AmgConfig

/-!
# The factories
-/

namespace Istl
namespace Factory

open Amg Solver

theorem spFor_eq {op : OpInfo} (h : OpOk op) : spFor op = makeScalarProduct op.cat := by
  unfold spFor
  cases hp : op.parallel with
  | true => rw [if_pos rfl]
  | false => rw [if_neg (by simp), h hp]; rfl

theorem sp_cat (c : Category) : (makeScalarProduct c).category = c := by cases c <;> rfl

/-- Wrapping yields a preconditioner of the right category exactly for usable ones. -/
theorem wrapFor_cat {op : OpInfo} (h : OpOk op) (p : PrecObj) :
    (op.cat = (wrapFor op p).category → Serves op p (wrapFor op p)) ∧ (op.cat = (wrapFor op p).category ↔ Usable op p) := by
  unfold wrapFor Serves Usable
  cases hp : op.parallel with
  | false =>
    simp only [Bool.false_eq_true, if_false, true_and, and_false, false_and, or_false]
    exact ⟨fun e => e.symm, eq_comm⟩
  | true =>
    simp only [if_true, true_and, and_true]
    by_cases h1 : op.cat = .overlapping ∧ p.category = .sequential
    · rw [if_pos h1]
      refine ⟨fun _ => Or.inr ⟨h1.2, Or.inl ⟨h1.1, rfl⟩⟩, ⟨fun _ => Or.inr h1.2, fun _ => h1.1⟩⟩
    · rw [if_neg h1]
      by_cases h2 : op.cat = .nonoverlapping ∧ p.category = .sequential
      · rw [if_pos h2]
        exact ⟨fun _ => Or.inr ⟨h2.2, Or.inr ⟨h2.1, rfl⟩⟩, ⟨fun _ => Or.inr h2.2, fun _ => h2.1⟩⟩
      · rw [if_neg h2]
        refine ⟨fun e => Or.inl ⟨rfl, e.symm⟩, fun e => Or.inl e.symm, fun e => ?_⟩
        rcases e with e | e
        · exact e.symm
        · cases hc : op.cat with
          | sequential => exact e.symm
          | overlapping => exact absurd ⟨hc, e⟩ h1
          | nonoverlapping => exact absurd ⟨hc, e⟩ h2

theorem extraOf_ok {V : Conv} {k : IterKind} {t : PTree} {x : Option Int} (h : extraOf V k t = .ok x) : ExtraIs V k t x := by
  have R : ∀ {x}, (do let n ← t.get V.int "restart"; Res.ok (some n)) = Res.ok x → ∃ s n, t "restart" = some s ∧ V.int s = some n ∧ x = some n := by
    intro x h
    rw [Res.bind_eq_ok] at h
    obtain ⟨n, h1, h2⟩ := h
    obtain ⟨s, a, b⟩ := get_ok h1
    injection h2 with h2
    exact ⟨s, n, a, b, h2.symm⟩
  have M : ∀ {x}, (do let n ← t.getOr V.int "mmax" 10; Res.ok (some n)) = Res.ok x → ∃ n, Reads V.int t "mmax" 10 n ∧ x = some n := by
    intro x h
    rw [Res.bind_eq_ok] at h
    obtain ⟨n, h1, h2⟩ := h
    injection h2 with h2
    exact ⟨n, getOr_ok h1, h2.symm⟩
  cases k with
  | gmres => exact Or.inl ⟨by simp, R h⟩
  | fgmres => exact Or.inl ⟨by simp, R h⟩
  | gpcg => exact Or.inl ⟨by simp, R h⟩
  | fcg => exact Or.inr (Or.inl ⟨by simp, M h⟩)
  | cfcg => exact Or.inr (Or.inl ⟨by simp, M h⟩)
  | loop => injection h with h; exact Or.inr (Or.inr ⟨by simp, h.symm⟩)
  | gradient => injection h with h; exact Or.inr (Or.inr ⟨by simp, h.symm⟩)
  | cg => injection h with h; exact Or.inr (Or.inr ⟨by simp, h.symm⟩)
  | bicgstab => injection h with h; exact Or.inr (Or.inr ⟨by simp, h.symm⟩)
  | minres => injection h with h; exact Or.inr (Or.inr ⟨by simp, h.symm⟩)

theorem extraOf_of {V : Conv} {k : IterKind} {t : PTree} {x : Option Int} (h : ExtraIs V k t x) : extraOf V k t = .ok x := by
  have G : ∀ {n : Int}, Reads V.int t "mmax" 10 n → t.getOr V.int "mmax" 10 = .ok n := by
    intro n hn
    rcases hn with ⟨a, b⟩ | ⟨s, a, b⟩
    · simp [PTree.getOr, a, b]
    · simp [PTree.getOr, PTree.get, a, b]
  rcases h with ⟨hk, s, n, a, b, rfl⟩ | ⟨hk, n, a, rfl⟩ | ⟨hk, rfl⟩ <;>
    simp only [List.mem_cons, List.not_mem_nil, or_false] at hk
  · rcases hk with rfl | rfl | rfl <;> simp [extraOf, get_of a b]
  · rcases hk with rfl | rfl <;> simp [extraOf, G a]
  · rcases hk with rfl | rfl | rfl | rfl | rfl <;> rfl

/-- A registered preconditioner. -/
theorem createPrec_ok {V : Conv} {E : Env} {op : OpInfo} {t : PTree} {name : String} {k : PrecKind} {p : PrecObj}
    (hk : (name, k) ∈ registryP) (h : createPrec V E op (.builtin k) t = .ok p) : PrecIs V op t name p ∧ E.build p = .ok () := by
  have N : ∀ {u : Unit}, needMatrix op = .ok u → op.assembled = true := by
    intro u h
    unfold needMatrix at h
    cases ha : op.assembled with
    | true => rfl
    | false => rw [ha, if_neg (by simp)] at h; exact absurd h (by simp)
  have Fi : ∀ {q p : PrecObj}, finish E q = .ok p → q = p ∧ E.build p = .ok () := by
    intro q p h
    unfold finish at h
    rw [Res.bind_eq_ok] at h
    obtain ⟨_, h1, h2⟩ := h
    injection h2 with h2
    exact ⟨h2, by rw [← h2]; exact h1⟩
  simp only [registryP, List.mem_cons, Prod.mk.injEq, List.not_mem_nil, or_false] at hk
  rcases hk with ⟨rfl, rfl⟩ | ⟨rfl, rfl⟩ | ⟨rfl, rfl⟩ | ⟨rfl, rfl⟩ | ⟨rfl, rfl⟩ | ⟨rfl, rfl⟩ | ⟨rfl, rfl⟩ | ⟨rfl, rfl⟩ | ⟨rfl, rfl⟩ <;>
    simp only [createPrec, Res.bind_eq_ok] at h
  · obtain ⟨_, h0, n, h1, w, h2, h3⟩ := h
    obtain ⟨rfl, hb⟩ := Fi h3
    exact ⟨.ssor (N h0) (getOr_ok h1) (getOr_ok h2), hb⟩
  · obtain ⟨_, h0, n, h1, w, h2, h3⟩ := h
    obtain ⟨rfl, hb⟩ := Fi h3
    exact ⟨.sor (N h0) (getOr_ok h1) (getOr_ok h2), hb⟩
  · obtain ⟨_, h0, n, h1, w, h2, h3⟩ := h
    obtain ⟨rfl, hb⟩ := Fi h3
    exact ⟨.gs (N h0) (getOr_ok h1) (getOr_ok h2), hb⟩
  · obtain ⟨_, h0, n, h1, w, h2, h3⟩ := h
    obtain ⟨rfl, hb⟩ := Fi h3
    exact ⟨.jac (N h0) (getOr_ok h1) (getOr_ok h2), hb⟩
  · obtain ⟨_, h0, w, h2, h3⟩ := h
    obtain ⟨rfl, hb⟩ := Fi h3
    exact ⟨.dilu (N h0) (getOr_ok h2), hb⟩
  · obtain ⟨_, h0, n, h1, w, h2, r, h4, h3⟩ := h
    obtain ⟨rfl, hb⟩ := Fi h3
    exact ⟨.ilu (N h0) (getOr_ok h1) (getOr_ok h2) (getOr_ok h4), hb⟩
  · obtain ⟨w, h2, h3⟩ := h
    obtain ⟨rfl, hb⟩ := Fi h3
    exact ⟨.richardson (getOr_ok h2), hb⟩
  · obtain ⟨_, h0, w, h2, h3⟩ := h
    obtain ⟨rfl, hb⟩ := Fi h3
    exact ⟨.ildl (N h0) (getOr_ok h2), hb⟩
  · obtain ⟨r, h2, h3⟩ := h
    obtain ⟨rfl, hb⟩ := Fi h3
    exact ⟨.amg h2, hb⟩

/-- Acceptance of a tree by a registered preconditioner. -/
theorem createPrec_of {V : Conv} {E : Env} {op : OpInfo} {t : PTree} {name : String} {k : PrecKind} {p : PrecObj}
    (hk : (name, k) ∈ registryP) (h : PrecIs V op t name p) (hb : E.build p = .ok ()) : createPrec V E op (.builtin k) t = .ok p := by
  have G : ∀ {α : Type} {q : String → Option α} {key : String} {d n : α}, Reads q t key d n → t.getOr q key d = .ok n := by
    intro α q key d n hn
    rcases hn with ⟨a, b⟩ | ⟨s, a, b⟩
    · simp [PTree.getOr, a, b]
    · simp [PTree.getOr, PTree.get, a, b]
  have N : op.assembled = true → needMatrix op = .ok () := fun h => by simp [needMatrix, h]
  simp only [registryP, List.mem_cons, Prod.mk.injEq, List.not_mem_nil, or_false] at hk
  cases h with
  | ssor a b c =>
    have : k = .ssor := by simpa using hk
    subst this; simp [createPrec, N a, G b, G c, finish, hb]
  | sor a b c =>
    have : k = .sor := by simpa using hk
    subst this; simp [createPrec, N a, G b, G c, finish, hb]
  | gs a b c =>
    have : k = .gs := by simpa using hk
    subst this; simp [createPrec, N a, G b, G c, finish, hb]
  | jac a b c =>
    have : k = .jac := by simpa using hk
    subst this; simp [createPrec, N a, G b, G c, finish, hb]
  | dilu a c =>
    have : k = .dilu := by simpa using hk
    subst this; simp [createPrec, N a, G c, finish, hb]
  | ilu a b c d =>
    have : k = .ilu := by simpa using hk
    subst this; simp [createPrec, N a, G b, G c, G d, finish, hb]
  | richardson c =>
    have : k = .richardson := by simpa using hk
    subst this; simp [createPrec, G c, finish, hb]
  | ildl a c =>
    have : k = .ildl := by simpa using hk
    subst this; simp [createPrec, N a, G c, finish, hb]
  | amg a =>
    have : k = .amg := by simpa using hk
    subst this; simp [createPrec, a, finish, hb]

/-- The constructor of an iterative solver, given its preconditioner. -/
theorem createIterative_ok {V : Conv} {E : Env} {F : Fac} {op : OpInfo} {k : IterKind} {t : PTree} {s : SolverOf} (ho : OpOk op)
    (h : createIterative V E F op k t = .ok s) :
    ∃ q, getPrec V E F op (PTree.sub t "preconditioner") = .ok q ∧ q.category = op.cat ∧ SolverIs V op k t q s := by
  simp only [createIterative, Res.bind_eq_ok] at h
  obtain ⟨q, hq, red, h1, maxit, h2, verbose, h3, h4⟩ := h
  by_cases c1 : op.cat ≠ q.category
  · rw [if_pos c1] at h4; exact absurd h4 (by simp)
  rw [if_neg c1] at h4
  by_cases c2 : op.cat ≠ (spFor op).category
  · rw [if_pos c2] at h4; exact absurd h4 (by simp)
  rw [if_neg c2, Res.bind_eq_ok] at h4
  obtain ⟨x, hx, h4⟩ := h4
  injection h4 with h4
  obtain ⟨a, a1, a2⟩ := get_ok h1
  obtain ⟨b, b1, b2⟩ := get_ok h2
  obtain ⟨c, d1, d2⟩ := get_ok h3
  refine ⟨q, hq, (not_not.mp c1).symm, ⟨red, maxit, verbose, x, a, b, c, ?_, a1, a2, b1, b2, d1, d2, extraOf_ok hx⟩⟩
  rw [← h4, spFor_eq ho]

theorem createIterative_of {V : Conv} {E : Env} {F : Fac} {op : OpInfo} {k : IterKind} {t : PTree} {q : PrecObj} (ho : OpOk op)
    (hq : getPrec V E F op (PTree.sub t "preconditioner") = .ok q) (hc : q.category = op.cat) (hk : SolverKeys V k t) :
    ∃ s, createIterative V E F op k t = .ok s := by
  obtain ⟨⟨a, red, a1, a2⟩, ⟨b, m, b1, b2⟩, ⟨c, v, c1, c2⟩, x, hx⟩ := hk
  refine ⟨.iterative k op.cat (spFor op) q red m v x, ?_⟩
  unfold createIterative
  rw [hq, Res.ok_bind, get_of a1 a2, Res.ok_bind, get_of b1 b2, Res.ok_bind, get_of c1 c2, Res.ok_bind, if_neg (by rw [hc]; simp),
    if_neg (by rw [spFor_eq ho, sp_cat]; simp), extraOf_of hx, Res.ok_bind]

theorem createIterative_cat {V : Conv} {E : Env} {F : Fac} {op : OpInfo} {k : IterKind} {t : PTree} {q : PrecObj}
    (hq : getPrec V E F op (PTree.sub t "preconditioner") = .ok q) (hc : op.cat ≠ q.category) (hk : SolverKeys V k t) :
    createIterative V E F op k t = .throw .invalidSolverCategory := by
  obtain ⟨⟨a, red, a1, a2⟩, ⟨b, m, b1, b2⟩, ⟨c, v, c1, c2⟩, _⟩ := hk
  unfold createIterative
  rw [hq, Res.ok_bind, get_of a1 a2, Res.ok_bind, get_of b1 b2, Res.ok_bind, get_of c1 c2, Res.ok_bind, if_pos hc]

/-- The preconditioner of a tree that names the reserved key. -/
theorem getPrec_passed {V : Conv} {E : Env} {F : Fac} {op : OpInfo} {t : PTree} {p : PrecObj} (ht : t "type" = some passedName)
    (hF : F.prec passedName = some (.passed p)) : getPrec V E F op t = .ok (wrapFor op p) := by
  unfold getPrec
  rw [get_of ht rfl, Res.ok_bind]
  simp only [hF, createPrec, Res.ok_bind]

/-- Creation depends on the factories only through the named entries. -/
theorem getPrec_congr {V : Conv} {E : Env} {F F' : Fac} {op : OpInfo} {t : PTree}
    (h : ∀ n, t "type" = some n → F.prec n = F'.prec n) : getPrec V E F op t = getPrec V E F' op t := by
  unfold getPrec
  cases ht : t "type" with
  | none => simp [PTree.get, ht]
  | some n => rw [get_of ht rfl, Res.ok_bind, Res.ok_bind, h n ht]

theorem create_congr {V : Conv} {E : Env} {F F' : Fac} {op : OpInfo} {t : PTree} {name : String} (hs : F.solver name = F'.solver name)
    (h : ∀ n, t "preconditioner.type" = some n → F.prec n = F'.prec n) : create V E F op name t = create V E F' op name t := by
  unfold create
  rw [hs]
  cases hn : F'.solver name with
  | none => rfl
  | some c =>
    cases c with
    | direct k => rfl
    | iterative k =>
      show createIterative V E F op k t = createIterative V E F' op k t
      unfold createIterative
      rw [getPrec_congr (F := F) (F' := F') (t := PTree.sub t "preconditioner") (fun n hn => h n hn)]

end Factory
end Istl
