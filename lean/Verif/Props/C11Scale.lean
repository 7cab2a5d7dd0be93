import Verif.Props.C08
import Verif.Props.C11

/-! # C11, scaling: `A *= k` and `A /= k` change every stored entry exactly once, and nothing else -/

namespace Istl
namespace BcrsWorld
open Bcrs
variable {B : Type}

/-- After any allowed program, `A_i *= k` (`f` is the multiplication of a block by `k`; `/=` likewise) gives the same sizes, the same
positions and `f` of every value, once; all other matrices of the program look as before. Excluded are matrices with entries that were
built row by row without announcing the number of entries and then counted or copied, see `C08_scale_after_copy_counterexample`. -/
theorem C11_scale (h : Heap B) (z : B) (hd : h.dflt = z) (hv : h.vini = z) (before : List (Op B)) (hok : AllValid z [] before)
    (i : Nat) (f : B → B) (hi : ∃ v, (run z [] before).get i = some v ∧ (v.lazy = true → v.counted = true → ∀ r ∈ v.rows, r = [])) :
    ∃ w1 w2 n m rows, before.foldlM step ⟨h, []⟩ = .ok w1 ∧ step w1 (.scale i f) = .ok w2 ∧ see w1 i = .ok (n, m, rows) ∧
      see w2 i = .ok (n, m, rows.map fun r => r.map fun e => (e.1, f e.2)) ∧
      ∀ k, k ≠ i → (∃ v, (run z [] before).get k = some v) → see w2 k = see w1 k := by
  obtain ⟨w1, e1, I1⟩ := run_inv before (inv_start h z hd hv) hok
  obtain ⟨v, hv1, hv2⟩ := hi
  obtain ⟨w2, e2, I2⟩ := step_inv I1 (.scale i f) ⟨v, hv1, hv2⟩
  refine ⟨w1, w2, v.n, v.m, v.rows, e1, e2, I1.see hv1, ?_, ?_⟩
  · have : (BcrsWorld.apply z (run z [] before) (.scale i f)).get i = some { v with rows := v.rows.map (mapVals f) } := by
      unfold State.get at hv1 ⊢
      simp only [BcrsWorld.apply, State.upd, List.getElem?_modify_eq]
      cases hx : (run z [] before)[i]? with
      | none => rw [hx] at hv1; simp at hv1
      | some x =>
        rw [hx] at hv1
        simp only [Option.join_some] at hv1
        subst hv1
        rfl
    rw [I2.see this]; rfl
  · rintro k hk ⟨u, hu⟩
    obtain ⟨u', hk', a1, a2, a3⟩ := apply_other z _ (.scale i f) ⟨v, hv1, hv2⟩ hu (by simpa [target] using fun h => hk h.symm)
    rw [I2.see hk', I1.see hu, a1, a2, a3]

private def scaleHeap : Heap Int := { js := [], as := [], junk := 9, dflt := 0, vini := 0 }

/-- A matrix built in random mode and copied; the copy is scaled. -/
example : ∃ w1 w2 n m rows,
    ([.random 2 3 0 [.set 0 2, .set 1 1] [(0, 2), (0, 0), (1, 1)], .fill 0 5, .copy 0] : List (Op Int)).foldlM step ⟨scaleHeap, []⟩ = .ok w1 ∧
      step w1 (.scale 1 (· * 2)) = .ok w2 ∧ see w1 1 = .ok (n, m, rows) ∧
      see w2 1 = .ok (n, m, rows.map fun r => r.map fun e => (e.1, e.2 * 2)) ∧
      ∀ k, k ≠ 1 → (∃ v, (run 0 [] ([.random 2 3 0 [.set 0 2, .set 1 1] [(0, 2), (0, 0), (1, 1)], .fill 0 5, .copy 0] : List (Op Int))).get k = some v) →
        see w2 k = see w1 k := by
  refine C11_scale scaleHeap 0 rfl rfl _ ?_ 1 _ ⟨_, rfl, by simp⟩
  refine ⟨⟨by simp [SizeOp.row], by simp, .inl rfl, by decide +kernel⟩, ⟨_, rfl⟩, ⟨_, rfl⟩, trivial⟩

end BcrsWorld
end Istl
