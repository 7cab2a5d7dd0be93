import Verif.Lemmas.FrameSeq

/-! # The complete record of a run of the common solver frame without exceptions -/

namespace Istl
namespace Solver

variable {K Rl X : Type} [Mul Rl] [Zero Rl]

/-- The record after the steps `0, …, n` of a sequence of defects. -/
def record (d : Nat → Rl) (n : Nat) : List (Nat × Rl) := (List.range (n + 1)).map fun k => (k, d k)

theorem record_succ (d : Nat → Rl) (n : Nat) : record d (n + 1) = record d n ++ [(n + 1, d (n + 1))] := by
  unfold record
  rw [List.range_succ (n := n + 1), List.map_append]
  rfl

theorem forIt_full {σ : Type} {E : Env K Rl X} {red : Rl} {advance : Nat → σ → σ} {defect : σ → Rl} {after : Nat → σ → σ} {V : Type} (v : σ → V)
    (seq : Nat → σ) (hseq : ∀ k, seq (k + 1) = after (k + 1) (advance (k + 1) (seq k))) (hv : ∀ i s, v (after i s) = v s)
    (hdf : ∀ i s, defect (after i s) = defect s) (hfin : ∀ k, E.finite (defect (seq k)) = true) :
    ∀ n k (it : It Rl), it.i = k → it.def0 = defect (seq 0) → it.cur = defect (seq k) → it.trace = record (fun j => defect (seq j)) k →
      it.converged = false → (∀ j, j ≤ k → small E red (defect (seq 0)) (defect (seq j)) = false) →
      let r := forIt E red advance defect after n (k + 1) (seq k) it
      r.2.2 = none ∧ r.2.1.i ≤ k + n ∧ k ≤ r.2.1.i ∧ r.2.1.def0 = defect (seq 0) ∧ r.2.1.cur = defect (seq r.2.1.i) ∧
        r.2.1.trace = record (fun j => defect (seq j)) r.2.1.i ∧ v r.1 = v (seq r.2.1.i) ∧
        r.2.1.converged = small E red (defect (seq 0)) (defect (seq r.2.1.i)) ∧
        (∀ j, j < r.2.1.i → small E red (defect (seq 0)) (defect (seq j)) = false) ∧ (r.2.1.converged = false → r.2.1.i = k + n) := by
  intro n
  induction n with
  | zero =>
    intro k it hi h0 hc ht hcv hs r
    refine ⟨rfl, le_of_eq hi, le_of_eq hi.symm, h0, by rw [show r.2.1.i = k from hi]; exact hc, by rw [show r.2.1.i = k from hi]; exact ht,
      by rw [show r.2.1.i = k from hi]; rfl, ?_, fun j hj => hs j (by rw [show r.2.1.i = k from hi] at hj; omega), fun _ => hi⟩
    rw [show r.2.1.i = k from hi, hs k le_rfl]
    exact hcv
  | succ n ih =>
    intro k it hi h0 hc ht hcv hs r
    have hd : defect (advance (k + 1) (seq k)) = defect (seq (k + 1)) := by rw [hseq, hdf]
    have hst : it.step E red (k + 1) (defect (advance (k + 1) (seq k))) = some ⟨defect (seq 0), defect (seq (k + 1)), k + 1,
        small E red (defect (seq 0)) (defect (seq (k + 1))), record (fun j => defect (seq j)) (k + 1)⟩ := by
      unfold It.step
      rw [hd, if_pos (hfin _), if_neg (by omega), h0, ht, record_succ]
    have hr : r = forIt E red advance defect after (n + 1) (k + 1) (seq k) it := rfl
    unfold forIt at hr
    dsimp only at hr
    rw [hst] at hr
    dsimp only at hr
    by_cases hb : small E red (defect (seq 0)) (defect (seq (k + 1))) = true
    · rw [if_pos hb] at hr
      rw [hr]
      refine ⟨rfl, by dsimp only; omega, by dsimp only; omega, rfl, rfl, rfl, ?_, rfl, fun j hj => hs j (by dsimp only at hj; omega), fun h => ?_⟩
      · dsimp only; rw [hseq, hv]
      · dsimp only at h; rw [hb] at h; cases h
    · rw [if_neg hb, ← hseq] at hr
      have hb' : small E red (defect (seq 0)) (defect (seq (k + 1))) = false := by simpa using hb
      have := ih (k + 1) ⟨defect (seq 0), defect (seq (k + 1)), k + 1, small E red (defect (seq 0)) (defect (seq (k + 1))),
        record (fun j => defect (seq j)) (k + 1)⟩ rfl rfl rfl rfl hb' (fun j hj => by
          rcases Nat.lt_or_ge j (k + 1) with h | h
          · exact hs j (by omega)
          · rw [show j = k + 1 by omega]; exact hb')
      dsimp only at this
      rw [← hr] at this
      obtain ⟨a1, a2, a3, a4⟩ := this
      exact ⟨a1, by omega, by omega, a4.1, a4.2.1, a4.2.2.1, a4.2.2.2.1, a4.2.2.2.2.1, a4.2.2.2.2.2.1, fun h => by rw [a4.2.2.2.2.2.2 h]; omega⟩

/-- If all defects are finite, the run follows the sequence of loop states up to the first converged one, or up to `maxit`. -/
theorem frame_full {σ : Type} (E : Env K Rl X) (red : Rl) (maxit : Nat) (meas : X → Rl) (advance : Nat → σ → σ)
    (defect : σ → Rl) (after : Nat → σ → σ) (init : X → X → Rl → σ) (getx getb : σ → X) (x b : X) (seq : Nat → σ)
    (h0 : seq 0 = init (E.pre x b).1 (defect0 E x b) (meas (defect0 E x b)))
    (hx0 : getx (seq 0) = (E.pre x b).1) (hb0 : getb (seq 0) = defect0 E x b) (hm0 : meas (defect0 E x b) = defect (seq 0))
    (hseq : ∀ k, seq (k + 1) = after (k + 1) (advance (k + 1) (seq k)))
    (hv : ∀ i s, getx (after i s) = getx s ∧ getb (after i s) = getb s) (hdf : ∀ i s, defect (after i s) = defect s)
    (hfin : ∀ k, E.finite (defect (seq k)) = true) :
    let e := frame E red maxit meas advance defect after init getx getb x b
    e.exc = none ∧ e.it.i ≤ maxit ∧ e.it.def0 = defect (seq 0) ∧ e.it.cur = defect (seq e.it.i) ∧
      e.it.trace = record (fun j => defect (seq j)) e.it.i ∧ e.x = E.post (getx (seq e.it.i)) ∧ e.b = getb (seq e.it.i) ∧
      e.it.converged = small E red (defect (seq 0)) (defect (seq e.it.i)) ∧
      (∀ j, j < e.it.i → small E red (defect (seq 0)) (defect (seq j)) = false) ∧ (e.it.converged = false → e.it.i = maxit) := by
  intro e
  have he : e = frame E red maxit meas advance defect after init getx getb x b := rfl
  unfold frame at he
  dsimp only at he
  rw [show E.subOp (E.pre x b).1 (E.pre x b).2 = defect0 E x b from rfl] at he
  have hst : It.start.step E red 0 (meas (defect0 E x b)) = some ⟨defect (seq 0), defect (seq 0), 0, small E red (defect (seq 0)) (defect (seq 0)),
      record (fun j => defect (seq j)) 0⟩ := by
    unfold It.step
    rw [hm0, if_pos (hfin _), if_pos rfl]
    rfl
  rw [hst] at he
  dsimp only at he
  by_cases hb : small E red (defect (seq 0)) (defect (seq 0)) = true
  · rw [if_pos hb] at he
    rw [he]
    exact ⟨rfl, Nat.zero_le _, rfl, rfl, rfl, by dsimp only; rw [hx0], by dsimp only; rw [hb0], rfl, fun j hj => by dsimp only at hj; omega,
      fun h => by dsimp only at h; rw [hb] at h; cases h⟩
  · have hb' : small E red (defect (seq 0)) (defect (seq 0)) = false := by simpa using hb
    rw [if_neg hb, ← h0] at he
    have key := forIt_full (E := E) (red := red) (advance := advance) (defect := defect) (after := after) (fun s => (getx s, getb s)) seq hseq
      (fun i s => by rw [(hv i s).1, (hv i s).2]) hdf hfin maxit 0 ⟨defect (seq 0), defect (seq 0), 0, small E red (defect (seq 0)) (defect (seq 0)),
      record (fun j => defect (seq j)) 0⟩ rfl rfl rfl rfl hb' (fun j hj => by rw [show j = 0 by omega]; exact hb')
    dsimp only at key
    rw [Nat.zero_add] at key
    obtain ⟨a1, a2, -, a4, a5, a6, a7, a8, a9, a10⟩ := key
    rw [a1] at he
    dsimp only at he
    rw [he]
    dsimp only
    exact ⟨rfl, by omega, a4, a5, a6, congrArg E.post (Prod.mk.inj a7).1, (Prod.mk.inj a7).2, a8, a9, fun h => by rw [a10 h, Nat.zero_add]⟩

end Solver
end Istl
