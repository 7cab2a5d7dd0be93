import Verif.Lemmas.AmgCycle2

/-! The additive multigrid variant. -/

namespace Istl
namespace Amg
variable {K V : Type} [AddCommGroup V] [SMul K V]

/-- The right hand side restricted to level `l`. -/
def restrTo (S : Setup K V) (d : V) : Nat → V
  | 0 => d
  | l + 1 => S.restr l (restrTo S d l)

theorem addRestrict_spec (S : Setup K V) (d : V) : ∀ (k : Nat) (h : Nat → V), k ≤ S.coarsest →
    (∀ l, l ≤ S.coarsest - k → h l = restrTo S d l) →
    ∃ h', addRestrict S k ((List.range (S.coarsest + 1)).map h) = .ok ((List.range (S.coarsest + 1)).map h') ∧
      ∀ l, l ≤ S.coarsest → h' l = restrTo S d l := by
  intro k
  induction k with
  | zero => intro h _ hh; exact ⟨h, rfl, fun l hl => hh l (by omega)⟩
  | succ k ih =>
    intro h hk hh
    unfold addRestrict
    dsimp only
    rw [rd_map h (by omega), Res.ok_bind, wr_map h _ (by omega), Res.ok_bind]
    refine ih _ (by omega) fun l hl => ?_
    by_cases e : l = S.coarsest - (k + 1) + 1
    · subst e
      rw [Function.update_self, restrTo, hh _ (le_refl _)]
    · rw [Function.update_of_ne e, hh l (by omega)]

theorem addSmooth_spec (S : Setup K V) (r : Nat → V) : ∀ (k : Nat) (f : Nat → V), k ≤ S.coarsest →
    (∀ l, l < S.coarsest - k → f l = S.pre l 0 (r l)) →
    ∃ f', addSmooth S ((List.range (S.coarsest + 1)).map r) k ((List.range (S.coarsest + 1)).map f) =
        .ok ((List.range (S.coarsest + 1)).map f') ∧ (∀ l, l < S.coarsest → f' l = S.pre l 0 (r l)) ∧ f' S.coarsest = f S.coarsest := by
  intro k
  induction k with
  | zero => intro f _ hf; exact ⟨f, rfl, fun l hl => hf l (by omega), rfl⟩
  | succ k ih =>
    intro f hk hf
    unfold addSmooth
    dsimp only
    rw [rd_map r (by omega), Res.ok_bind, wr_map f _ (by omega), Res.ok_bind]
    obtain ⟨f', e1, e2, e3⟩ := ih (Function.update f (S.coarsest - (k + 1)) (S.pre (S.coarsest - (k + 1)) 0 (r (S.coarsest - (k + 1)))))
      (by omega) (fun l hl => by
        by_cases e : l = S.coarsest - (k + 1)
        · subst e; rw [Function.update_self]
        · rw [Function.update_of_ne e, hf l (by omega)])
    exact ⟨f', e1, e2, by rw [e3, Function.update_of_ne (by omega)]⟩

theorem addProlong_spec (S : Setup K V) (sol : V → V) (d : V) : ∀ (k : Nat) (f : Nat → V), k ≤ S.coarsest →
    (∀ l, l < k → f l = S.pre l 0 (restrTo S d l)) → f k = additive sol S (S.coarsest - k) k (restrTo S d k) →
    ∃ f', addProlong S k ((List.range (S.coarsest + 1)).map f) = .ok ((List.range (S.coarsest + 1)).map f') ∧
      f' 0 = additive sol S S.coarsest 0 d := by
  intro k
  induction k with
  | zero => intro f _ _ h; exact ⟨f, rfl, h⟩
  | succ k ih =>
    intro f hk hf h
    unfold addProlong
    rw [rd_map f (by omega), Res.ok_bind, rd_map f (by omega), Res.ok_bind, wr_map f _ (by omega), Res.ok_bind]
    refine ih _ (by omega) (fun l hl => ?_) ?_
    · rw [Function.update_of_ne (by omega), hf l (by omega)]
    · rw [Function.update_self, show S.coarsest - k = (S.coarsest - (k + 1)) + 1 by omega, additive, h, hf k (by omega)]
      rfl

end Amg
end Istl
