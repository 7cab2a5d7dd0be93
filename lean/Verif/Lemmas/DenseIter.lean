import Verif.Spec.DenseIter
import Verif.Lemmas.Vec

/-! Lemmas for C105. -/

namespace Istl
namespace DenseIter
open Iter (Dir)
variable {B τ : Type}

theorem idx_inj {m i j i' j' : Nat} (hj : j < m) (hj' : j' < m) (h : i * m + j = i' * m + j') : i = i' ∧ j = j' := by
  have hm : 0 < m := by omega
  have h1 : (i * m + j) / m = i := by rw [Nat.mul_comm, Nat.mul_add_div hm, Nat.div_eq_of_lt hj, Nat.add_zero]
  have h2 : (i' * m + j') / m = i' := by rw [Nat.mul_comm, Nat.mul_add_div hm, Nat.div_eq_of_lt hj', Nat.add_zero]
  have hi : i = i' := by rw [← h1, ← h2, h]
  subst hi
  exact ⟨rfl, by omega⟩

theorem idx_lt {n m i j : Nat} (hi : i < n) (hj : j < m) : i * m + j < n * m := by
  calc i * m + j < i * m + m := by omega
    _ = (i + 1) * m := by rw [Nat.add_mul, Nat.one_mul]
    _ ≤ n * m := Nat.mul_le_mul_right m hi

/-- The entries of one row. -/
def rowPlaces (m i : Nat) : List (Nat × Nat) := (List.range m).map fun j => (i, j)

theorem rowBody_ok (f : Nat → Nat → B → τ → B × τ) {A : DMat B} {n m i : Nat} {M : Nat → Nat → B} (hA : A.Is n m M) (hi : i < n) (s : τ) :
    ∃ A', rowBody f ⟨i, i * m, m⟩ (A, s) = .ok (A', ((rowPlaces m i).foldl (visit f) (M, s)).2) ∧
      A'.Is n m ((rowPlaces m i).foldl (visit f) (M, s)).1 := by
  obtain ⟨y, h1, h2⟩ := forRangeM_inv m (fun j (x : DMat B × τ) => do
    let b ← rd x.1.p (i * m + j)
    let p ← wr x.1.p (i * m + j) (f i j b x.2).1
    .ok ({ x.1 with p := p }, (f i j b x.2).2)) (fun k x =>
      x.1.Is n m ((rowPlaces k i).foldl (visit f) (M, s)).1 ∧ x.2 = ((rowPlaces k i).foldl (visit f) (M, s)).2) (A, s)
    ⟨hA, rfl⟩ (by
      rintro k ⟨A', s'⟩ hk ⟨hI, hs⟩
      dsimp only at hI hs ⊢
      have hsn : rowPlaces (k + 1) i = rowPlaces k i ++ [(i, k)] := by simp [rowPlaces, List.range_succ]
      rw [hsn, List.foldl_append]
      simp only [List.foldl_cons, List.foldl_nil]
      set X := (rowPlaces k i).foldl (visit f) (M, s) with hX
      obtain ⟨r1, r2, r3, r4, r5⟩ := hI
      have hrd : rd A'.p (i * m + k) = .ok (X.1 i k) := by
        have := r5 i k hi hk
        unfold DMat.get at this
        rw [r3] at this
        exact this
      have hlt : i * m + k < A'.p.length := by rw [r4]; exact idx_lt hi hk
      refine ⟨_, by rw [hrd, Res.ok_bind, wr_lt _ hlt, Res.ok_bind], ⟨r1, r2, r3, ?_, ?_⟩, ?_⟩
      · simpa using r4
      · intro i' j' hi' hj'
        unfold DMat.get
        dsimp only
        rw [r3]
        have hlt' : i' * m + j' < A'.p.length := by rw [r4]; exact idx_lt hi' hj'
        rw [rd_lt (by simpa using hlt'), List.getElem_set]
        unfold visit
        dsimp only
        by_cases he : i * m + k = i' * m + j'
        · obtain ⟨rfl, rfl⟩ := idx_inj hk hj' he
          rw [if_pos rfl, if_pos ⟨rfl, rfl⟩, hs]
        · rw [if_neg he, if_neg (by rintro ⟨rfl, rfl⟩; exact he rfl)]
          have := r5 i' j' hi' hj'
          unfold DMat.get at this
          rw [r3, rd_lt hlt'] at this
          exact this
      · unfold visit; rw [hs])
  refine ⟨y.1, ?_, h2.1⟩
  rw [← h2.2]
  exact h1

/-- Where the iterator is after `k` steps. -/
def at' (W n m : Nat) : Dir → Nat → It
  | .up, k => ⟨k, k * m, m⟩
  | .down, k => if k < n then ⟨n - 1 - k, (n - 1 - k) * m, m⟩ else ⟨W - 1, W - m, m⟩

/-- The row of step `k`. -/
def rowAt (n : Nat) : Dir → Nat → Nat
  | .up, k => k
  | .down, k => n - 1 - k

section
variable {W n m : Nat} (hm : 0 < m) (hn : n < W) (hmW : m < W) (hW : n * m < W)
include hm hn hmW hW

theorem before_make : It.make W m (W - 1) = ⟨W - 1, W - m, m⟩ := by
  unfold It.make
  have : (W - 1) * m = (W - m) + W * (m - 1) := by
    obtain ⟨w, rfl⟩ : ∃ w, W = m + w := ⟨W - m, by omega⟩
    obtain ⟨k, rfl⟩ : ∃ k, m = k + 1 := ⟨m - 1, by omega⟩
    simp only [Nat.add_sub_cancel, Nat.add_sub_cancel_left]
    have : k + 1 + w - 1 = k + w := by omega
    rw [this]
    ring
  rw [this, Nat.add_mul_mod_self_left, Nat.mod_eq_of_lt (by omega)]

theorem start_at {A : DMat B} (h1 : A.rows = n) (h3 : A.columns = m) (d : Dir) : start W A d = at' W n m d 0 := by
  cases d with
  | up => simp [start, first, It.make, at', h3]
  | down =>
    simp only [start, beforeEnd, h1, h3, at']
    by_cases hn0 : n = 0
    · subst hn0
      rw [if_neg (by omega), Nat.zero_add, Nat.mod_eq_of_lt (by omega)]
      exact before_make hm hn hmW hW
    · rw [if_pos (by omega)]
      have : (n + (W - 1)) % W = n - 1 := by
        have : n + (W - 1) = (n - 1) + W := by omega
        rw [this, Nat.add_mod_right, Nat.mod_eq_of_lt (by omega)]
      rw [this]
      unfold It.make
      rw [Nat.mod_eq_of_lt (lt_of_le_of_lt (Nat.mul_le_mul_right m (by omega)) hW)]
      rfl

theorem stop_at {A : DMat B} (h1 : A.rows = n) (h3 : A.columns = m) (d : Dir) : stop W A d = at' W n m d n := by
  cases d with
  | up => simp [stop, last, It.make, at', h1, h3, Nat.mod_eq_of_lt hW]
  | down =>
    simp only [stop, beforeBegin, h3, at', Nat.lt_irrefl, if_false]
    exact before_make hm hn hmW hW

theorem at_lt (d : Dir) {k : Nat} (hk : k < n) : at' W n m d k = ⟨rowAt n d k, rowAt n d k * m, m⟩ ∧ rowAt n d k < n := by
  cases d with
  | up => exact ⟨rfl, hk⟩
  | down => exact ⟨by simp [at', hk, rowAt], by simp [rowAt]; omega⟩

theorem equals_at (d : Dir) {k : Nat} (hk : k ≤ n) : (at' W n m d k).equals (at' W n m d n) = decide (k = n) := by
  unfold It.equals
  by_cases h : k = n
  · subst h; simp
  · have hk' : k < n := by omega
    rw [decide_eq_false h, beq_eq_false_iff_ne]
    cases d with
    | up =>
      simp only [at']
      intro he
      exact h (Nat.eq_of_mul_eq_mul_right hm he)
    | down =>
      simp only [at', hk', if_true, Nat.lt_irrefl, if_false]
      have h1 : (n - 1 - k) * m + m ≤ n * m := by
        have : (n - 1 - k) * m + m = (n - 1 - k + 1) * m := by ring
        rw [this]
        exact Nat.mul_le_mul_right m (by omega)
      omega

theorem step_at (d : Dir) {k : Nat} (hk : k < n) : step W d (at' W n m d k) = at' W n m d (k + 1) := by
  cases d with
  | up =>
    simp only [step, It.inc, at']
    have h1 : k * m + m = (k + 1) * m := by ring
    have h2 : (k + 1) * m ≤ n * m := Nat.mul_le_mul_right m hk
    rw [h1, Nat.mod_eq_of_lt (show k + 1 < W by omega), Nat.mod_eq_of_lt (show (k + 1) * m < W by omega)]
  | down =>
    simp only [step, It.dec, at', hk, if_true]
    have hmod : ∀ a b, 0 < b → b ≤ a → a < W → (a + (W - b)) % W = a - b := by
      intro a b hb hab ha
      have : a + (W - b) = (a - b) + W := by omega
      rw [this, Nat.add_mod_right, Nat.mod_eq_of_lt (by omega)]
    by_cases h : k + 1 < n
    · rw [if_pos h]
      have e : n - 1 - k = (n - 1 - (k + 1)) + 1 := by omega
      have h1 : (n - 1 - k) * m = (n - 1 - (k + 1)) * m + m := by rw [e]; ring
      have h2 : (n - 1 - k) * m ≤ n * m := Nat.mul_le_mul_right m (by omega)
      rw [hmod _ 1 (by omega) (by omega) (by omega), hmod _ m hm (by omega) (by omega)]
      congr 1
      omega
    · rw [if_neg h]
      have e : n - 1 - k = 0 := by omega
      rw [e]
      simp only [Nat.zero_mul, Nat.zero_add]
      rw [Nat.mod_eq_of_lt (by omega), Nat.mod_eq_of_lt (by omega)]

/-- From step `k` on. -/
theorem loop_from (d : Dir) (f : Nat → Nat → B → τ → B × τ) (q : Nat) : ∀ {k : Nat}, k + q = n → ∀ {A : DMat B} {M : Nat → Nat → B}, A.Is n m M →
    ∀ s : τ, ∃ A', A'.Is n m ((((List.range' k q).map (rowAt n d)).flatMap (rowPlaces m)).foldl (visit f) (M, s)).1 ∧
      ∀ r, Loop W d f (at' W n m d n) (at' W n m d k) (A, s) r ↔
        r = .ok (A', ((((List.range' k q).map (rowAt n d)).flatMap (rowPlaces m)).foldl (visit f) (M, s)).2) := by
  induction q with
  | zero =>
    intro k hk A M hA s
    have hkn : k = n := by omega
    subst hkn
    refine ⟨A, hA, fun r => ?_⟩
    have he := equals_at hm hn hmW hW d (le_refl k)
    rw [decide_eq_true rfl] at he
    constructor
    · intro h
      cases h with
      | done => rfl
      | next h1 => rw [he] at h1; exact absurd h1 (by simp)
      | throw h1 => rw [he] at h1; exact absurd h1 (by simp)
      | ub h1 => rw [he] at h1; exact absurd h1 (by simp)
    · rintro rfl
      exact .done he
  | succ q ih =>
    intro k hk A M hA s
    have hkn : k < n := by omega
    obtain ⟨e1, e2⟩ := at_lt hm hn hmW hW d hkn
    obtain ⟨A1, b1, b2⟩ := rowBody_ok f hA e2 s
    obtain ⟨A', c1, c2⟩ := ih (k := k + 1) (by omega) b2 ((rowPlaces m (rowAt n d k)).foldl (visit f) (M, s)).2
    have hl : ((List.range' k (q + 1)).map (rowAt n d)).flatMap (rowPlaces m) =
        rowPlaces m (rowAt n d k) ++ ((List.range' (k + 1) q).map (rowAt n d)).flatMap (rowPlaces m) := by
      rw [List.range'_succ, List.map_cons, List.flatMap_cons]
    rw [hl, List.foldl_append]
    refine ⟨A', c1, fun r => ?_⟩
    rw [← c2 r, ← step_at hm hn hmW hW d hkn]
    have he := equals_at hm hn hmW hW d (Nat.le_of_lt hkn)
    rw [decide_eq_false (by omega)] at he
    rw [← e1] at b1
    constructor
    · intro h
      cases h with
      | done h1 => rw [he] at h1; exact absurd h1 (by simp)
      | next h1 h2 h3 =>
        rw [b1] at h2
        rw [Res.ok.inj h2]
        exact h3
      | throw h1 h2 => rw [b1] at h2; exact absurd h2 (by simp)
      | ub h1 h2 => rw [b1] at h2; exact absurd h2 (by simp)
    · intro h
      exact .next he b1 h

end

theorem rowOrder_eq (n : Nat) (d : Dir) : (List.range' 0 n).map (rowAt n d) = rowOrder n d := by
  cases d with
  | up =>
    unfold rowOrder
    apply List.ext_getElem (by simp)
    intro i h1 h2
    simp [rowAt]
  | down =>
    unfold rowOrder
    apply List.ext_getElem (by simp)
    intro i h1 h2
    simp [rowAt]

end DenseIter
end Istl
