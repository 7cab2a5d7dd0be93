import Verif.Lemmas.Cg

/-! # A run of the common solver frame as a sequence of states -/

namespace Istl
namespace Solver

variable {K Rl X : Type} [Field K] [AddCommGroup X] [Module K X] [Mul Rl] [Zero Rl]

/-- On normal return the vectors are those of the sequence of loop states at the reported step number. -/
theorem frame_seq {σ : Type} (E : Env K Rl X) (red : Rl) (maxit : Nat) (meas : X → Rl) (advance : Nat → σ → σ)
    (defect : σ → Rl) (after : Nat → σ → σ) (init : X → X → Rl → σ) (getx getb : σ → X) (x b : X) (seq : Nat → σ)
    (h0 : seq 0 = init (E.pre x b).1 (defect0 E x b) (meas (defect0 E x b)))
    (hx0 : getx (seq 0) = (E.pre x b).1) (hb0 : getb (seq 0) = defect0 E x b)
    (hseq : ∀ k, seq (k + 1) = after (k + 1) (advance (k + 1) (seq k)))
    (hv : ∀ i s, getx (after i s) = getx s ∧ getb (after i s) = getb s) (hdf : ∀ i s, defect (after i s) = defect s)
    (hx : (frame E red maxit meas advance defect after init getx getb x b).exc = none) :
    let e := frame E red maxit meas advance defect after init getx getb x b
    e.x = E.post (getx (seq e.it.i)) ∧ e.b = getb (seq e.it.i) := by
  intro e
  have he : e = frame E red maxit meas advance defect after init getx getb x b := rfl
  unfold frame at he
  dsimp only at he
  rw [show E.subOp (E.pre x b).1 (E.pre x b).2 = defect0 E x b from rfl] at he
  cases hs : It.start.step E red 0 (meas (defect0 E x b)) with
  | none => rw [hs] at he; change e.exc = none at hx; rw [he] at hx; cases hx
  | some it =>
    rw [hs] at he
    dsimp only at he
    obtain ⟨g, hi, hd0, hcur⟩ := good_start hs
    by_cases hc : it.converged = true
    · rw [if_pos hc] at he
      rw [he]
      dsimp only
      rw [hi, hx0, hb0]
      exact ⟨rfl, rfl⟩
    · have hcf : it.converged = false := by simpa using hc
      rw [if_neg hc, ← h0] at he
      have key := forIt_seq (E := E) (red := red) (advance := advance) (defect := defect) (after := after) seq
        (fun s => (getx s, getb s)) hseq (fun i s => by rw [(hv i s).1, (hv i s).2]) hdf maxit it hcf
      rw [hi, Nat.zero_add] at key
      dsimp only at key
      cases hr : (forIt E red advance defect after maxit 1 (seq 0) it).2.2 with
      | some e' => rw [hr] at he; change e.exc = none at hx; rw [he] at hx; cases hx
      | none =>
        rw [hr] at he
        dsimp only at he
        obtain ⟨a1, -, -⟩ := key hr
        rw [he]
        exact ⟨congrArg E.post (Prod.mk.inj a1).1, (Prod.mk.inj a1).2⟩

end Solver
end Istl
