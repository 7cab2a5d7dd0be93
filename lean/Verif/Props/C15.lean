import Verif.Lemmas.Vec
import Verif.Props.C09
import Mathlib.Algebra.Order.BigOperators.Group.Finset

/-! # C15 — the dense `Matrix` computes the mathematical results

Every operation is a refinement: from objects that stand for given matrices and vectors (`DMat.Is`, `VecIs`) it runs
without undefined behaviour and yields an object that stands for the mathematical result. Shapes are arbitrary,
including `0 x m` and `n x 0`.
-/

namespace Istl
namespace DMat

theorem idx_lt {n m i j : Nat} (hi : i < n) (hj : j < m) : i * m + j < n * m := by
  have : (i + 1) * m ≤ n * m := Nat.mul_le_mul_right m hi
  rw [Nat.add_mul, Nat.one_mul] at this
  omega

theorem idx_inj {m i j k l : Nat} (hj : j < m) (hl : l < m) (h : i * m + j = k * m + l) : i = k ∧ j = l := by
  have hm : 0 < m := by omega
  have h1 : (i * m + j) / m = i := by
    rw [Nat.mul_comm, Nat.mul_add_div hm, Nat.div_eq_of_lt hj, Nat.add_zero]
  have h2 : (k * m + l) / m = k := by
    rw [Nat.mul_comm, Nat.mul_add_div hm, Nat.div_eq_of_lt hl, Nat.add_zero]
  have hik : i = k := by rw [← h1, ← h2, h]
  subst hik
  exact ⟨rfl, by omega⟩

/-- An element write changes exactly the element written. -/
theorem Is.set {B : Type} {A : DMat B} {n m : Nat} {F : Nat → Nat → B} (h : A.Is n m F) {i j : Nat} (b : B)
    (hi : i < n) (hj : j < m) :
    ∃ A', A.set i j b = .ok A' ∧ A'.Is n m (fun k l => if k = i ∧ l = j then b else F k l) := by
  obtain ⟨hr, hc, hcs, hl, hg⟩ := h
  have hlt : i * A.columns + j < A.p.length := by rw [hl, hcs]; exact idx_lt hi hj
  refine ⟨{ A with p := A.p.set (i * A.columns + j) b }, ?_, hr, hc, hcs, ?_, ?_⟩
  · simp [DMat.set, wr_lt b hlt]
  · simpa using hl
  · intro k l hk hl'
    have := hg k l hk hl'
    simp only [DMat.get, rd_ok] at this ⊢
    rw [List.getElem?_set]
    by_cases e : k = i ∧ l = j
    · obtain ⟨rfl, rfl⟩ := e
      simp only [and_self, if_true]
      rw [if_pos hlt]
    · rw [if_neg e, if_neg ?_, this]
      intro e'
      rw [hcs] at e'
      obtain ⟨h1, h2⟩ := idx_inj hj hl' e'
      exact e ⟨h1.symm, h2.symm⟩

theorem Is.congr {B : Type} {A : DMat B} {n m : Nat} {F G : Nat → Nat → B} (h : A.Is n m F)
    (e : ∀ i j, i < n → j < m → F i j = G i j) : A.Is n m G := by
  obtain ⟨hr, hc, hcs, hl, hg⟩ := h
  exact ⟨hr, hc, hcs, hl, fun i j hi hj => by rw [← e i j hi hj]; exact hg i j hi hj⟩

/-- The value of an element is determined by the object. -/
theorem Is.unique {B : Type} {A : DMat B} {n m n' m' : Nat} {F G : Nat → Nat → B} (h : A.Is n m F) (h' : A.Is n' m' G) :
    n = n' ∧ m = m' ∧ ∀ i j, i < n → j < m → F i j = G i j := by
  obtain ⟨hr, hc, _, _, hg⟩ := h
  obtain ⟨hr', hc', _, _, hg'⟩ := h'
  subst hr hc hr' hc'
  refine ⟨rfl, rfl, fun i j hi hj => ?_⟩
  have := hg i j hi hj
  rw [hg' i j hi hj] at this
  exact (Res.ok.inj this).symm

end DMat

open DMat

section Objects
variable {B : Type}

/-- Any object with consistent sizes stands for some matrix. -/
theorem Dense.exists_is (A : DMat B) (b0 : B) (h : A.cols = A.columns) (hl : A.p.length = A.rows * A.columns) :
    ∃ F, A.Is A.rows A.cols F := by
  refine ⟨fun i j => A.p.getD (i * A.columns + j) b0, rfl, rfl, h.symm, by rw [hl, h], ?_⟩
  intro i j hi hj
  rw [h] at hj
  have : i * A.columns + j < A.p.length := by rw [hl]; exact idx_lt hi hj
  rw [DMat.get, rd_lt this]
  simp [List.getD, this]

/-- `Matrix(n,m)` and `setSize(n,m)` give an `n x m` object, whatever the state of the object before. -/
theorem C15_make (init : Nat → B) (A : DMat B) (n m : Nat) :
    (∃ F, (make init n m).Is n m F) ∧ (∃ F, (A.setSize init n m).Is n m F) := by
  have : (make init n m).Is n m (fun i j => init (i * m + j)) := by
    refine ⟨rfl, rfl, rfl, by simp [make, fresh], ?_⟩
    intro i j hi hj
    rw [DMat.get, rd_ok]
    simp [make, fresh, idx_lt hi hj]
  exact ⟨⟨_, this⟩, ⟨_, this⟩⟩

theorem Dense.copyLoop (a q : List B) (h : q.length = a.length) :
    forRangeM q.length (copyStep a) q = .ok a := by
  obtain ⟨s, e, hl, hs⟩ := forRangeM_inv q.length (copyStep a)
    (fun i s => s.length = a.length ∧ ∀ k, k < i → s[k]? = a[k]?) q ⟨h, by intro k hk; omega⟩ (by
      intro i s hi ⟨hl, hs⟩
      have hia : i < a.length := by omega
      have his : i < s.length := by omega
      refine ⟨s.set i a[i], by simp [copyStep, rd_lt hia, wr_lt _ his], by simpa using hl, ?_⟩
      intro k hk
      rw [List.getElem?_set]
      by_cases e : i = k
      · subst e; simp [his, hia]
      · rw [if_neg e]; exact hs k (by omega))
  rw [e]
  congr 1
  apply List.ext_getElem?
  intro k
  by_cases hk : k < q.length
  · exact hs k hk
  · rw [List.getElem?_eq_none (by omega), List.getElem?_eq_none (by omega)]

/-- The copy constructor yields an equal matrix. -/
theorem C15_copy (init : Nat → B) (a : DMat B) : a.copy init = .ok a := by
  have := Dense.copyLoop a.p (fresh init a.p.length) (by simp [fresh])
  have hlen : (fresh init a.p.length).length = a.p.length := by simp [fresh]
  rw [hlen] at this
  simp [DMat.copy, this]

/-- Assignment yields an equal matrix, whatever the target's old shape was. -/
theorem C15_assign (init : Nat → B) (A a : DMat B) : A.assign init a = .ok a := by
  unfold DMat.assign
  by_cases h : A.p.length ≠ a.p.length ∨ A.rows ≠ a.rows
  · have := Dense.copyLoop a.p (fresh init a.p.length) (by simp [fresh])
    dsimp only
    rw [if_pos h]
    dsimp only
    rw [this]
    rfl
  · have h' := h
    push Not at h'
    have := Dense.copyLoop a.p A.p h'.1
    dsimp only
    rw [if_neg h]
    dsimp only
    rw [this]
    simp [h'.2]

/-- A loop replacing each block of the flat array by `g i` of its old value. -/
theorem Dense.flatLoop (body : Nat → List B → Res (List B)) (g : Nat → B → B) (q : List B)
    (hb : ∀ i s v, i < q.length → s.length = q.length → s[i]? = some v → body i s = .ok (s.set i (g i v))) :
    ∃ s, forRangeM q.length body q = .ok s ∧ s.length = q.length ∧ ∀ k v, q[k]? = some v → s[k]? = some (g k v) := by
  obtain ⟨s, e, hl, hs, _⟩ := forRangeM_inv q.length body
    (fun i s => s.length = q.length ∧ (∀ k v, k < i → q[k]? = some v → s[k]? = some (g k v)) ∧
      ∀ k, i ≤ k → s[k]? = q[k]?) q ⟨rfl, by intro k v hk; omega, by intros; rfl⟩ (by
      intro i s hi ⟨hl, h1, h2⟩
      have his : i < s.length := by omega
      have hv : s[i]? = some q[i] := by rw [h2 i le_rfl]; simp [hi]
      refine ⟨_, hb i s _ hi hl hv, by simpa using hl, ?_, ?_⟩
      · intro k v hk hkv
        rw [List.getElem?_set]
        by_cases e : i = k
        · subst e
          have : v = q[i] := by simpa [hi] using hkv.symm
          simp [his, this]
        · rw [if_neg e]; exact h1 k v (by omega) hkv
      · intro k hk
        rw [List.getElem?_set_ne (by omega)]
        exact h2 k (by omega))
  refine ⟨s, e, hl, fun k v hkv => hs k v ?_ hkv⟩
  by_contra hk
  rw [List.getElem?_eq_none (by omega)] at hkv
  cases hkv

theorem Dense.flat_is {A : DMat B} {n m : Nat} {F : Nat → Nat → B} (h : A.Is n m F) (q : List B) (G : Nat → Nat → B)
    (hl : q.length = A.p.length)
    (hq : ∀ i j, i < n → j < m → A.p[i * m + j]? = some (F i j) → q[i * m + j]? = some (G i j)) :
    ({ A with p := q } : DMat B).Is n m G := by
  obtain ⟨hr, hc, hcs, hlen, hg⟩ := h
  refine ⟨hr, hc, hcs, by rw [← hlen]; exact hl, ?_⟩
  intro i j hi hj
  have := hg i j hi hj
  simp only [DMat.get, rd_ok] at this ⊢
  rw [hcs] at this ⊢
  exact hq i j hi hj this

/-- `A = k` sets every element. -/
theorem C15_fill {K : Type} (sc : K → B) (k : K) {A : DMat B} {n m : Nat} {F : Nat → Nat → B} (h : A.Is n m F) :
    ∃ A', A.fill sc k = .ok A' ∧ A'.Is n m (fun _ _ => sc k) := by
  obtain ⟨s, e, hl, hs⟩ := Dense.flatLoop (fun i q => wr q i (sc k)) (fun _ _ => sc k) A.p
    (by intro i s v hi hl _; exact wr_lt _ (by omega))
  refine ⟨{ A with p := s }, by simp [DMat.fill, e], Dense.flat_is h s _ hl ?_⟩
  intro i j _ _ hv
  exact hs _ _ hv

theorem Dense.map_is (f : B → B) {A : DMat B} {n m : Nat} {F : Nat → Nat → B} (h : A.Is n m F) :
    ∃ s, forRangeM A.p.length (mapStep f) A.p = .ok s ∧ ({ A with p := s } : DMat B).Is n m (fun i j => f (F i j)) := by
  obtain ⟨s, e, hl, hs⟩ := Dense.flatLoop (mapStep f) (fun _ v => f v) A.p (by
    intro i s v hi hl hv
    have : rd s i = .ok v := rd_ok.mpr hv
    simp [mapStep, this, wr_lt _ (show i < s.length by omega)])
  exact ⟨s, e, Dense.flat_is h s _ hl (fun i j _ _ hv => hs _ _ hv)⟩

/-- `A *= k`. -/
theorem C15_mulScalar {K : Type} [SMul K B] (k : K) {A : DMat B} {n m : Nat} {F : Nat → Nat → B} (h : A.Is n m F) :
    ∃ A', A.mulScalar k = .ok A' ∧ A'.Is n m (fun i j => k • F i j) := by
  obtain ⟨s, e, hi⟩ := Dense.map_is (fun b => k • b) h
  exact ⟨_, by simp only [DMat.mulScalar, e]; rfl, hi⟩

/-- `A /= k` divides every element. -/
theorem C15_divScalar {K : Type} [DivisionRing K] [AddCommGroup B] [Module K B] (k : K) {A : DMat B} {n m : Nat}
    {F : Nat → Nat → B} (h : A.Is n m F) :
    ∃ A', A.divScalar k = .ok A' ∧ A'.Is n m (fun i j => k⁻¹ • F i j) := by
  obtain ⟨s, e, hi⟩ := Dense.map_is (fun b => k⁻¹ • b) h
  exact ⟨_, by simp only [DMat.divScalar, e]; rfl, hi⟩

theorem Dense.zip_is (f : B → B → B) {A b : DMat B} {n m : Nat} {F G : Nat → Nat → B} (h : A.Is n m F)
    (hb : b.Is n m G) :
    ∃ s, forRangeM A.p.length (zipStep f b.p) A.p = .ok s ∧
      ({ A with p := s } : DMat B).Is n m (fun i j => f (F i j) (G i j)) := by
  have hlen : A.p.length = b.p.length := by rw [h.2.2.2.1, hb.2.2.2.1]
  obtain ⟨s, e, hl, hs⟩ := Dense.flatLoop (zipStep f b.p) (fun i v => f v (b.p.getD i v)) A.p (by
    intro i s v hi hl hv
    have h1 : rd s i = .ok v := rd_ok.mpr hv
    have h2 : i < b.p.length := by omega
    simp [zipStep, h1, rd_lt h2, wr_lt _ (show i < s.length by omega), h2])
  refine ⟨s, e, Dense.flat_is h s _ hl (fun i j hi hj hv => ?_)⟩
  rw [hs _ _ hv]
  have := hb.2.2.2.2 i j hi hj
  rw [DMat.get, rd_ok, hb.2.2.1] at this
  simp [List.getD, this]

/-- `A += b`. -/
theorem C15_add [Add B] {A b : DMat B} {n m : Nat} {F G : Nat → Nat → B} (h : A.Is n m F) (hb : b.Is n m G) :
    ∃ A', A.addAssign b = .ok A' ∧ A'.Is n m (fun i j => F i j + G i j) := by
  obtain ⟨s, e, hi⟩ := Dense.zip_is (fun u v => u + v) h hb
  exact ⟨_, by simp only [DMat.addAssign, e]; rfl, hi⟩

/-- `A -= b`. -/
theorem C15_sub [Sub B] {A b : DMat B} {n m : Nat} {F G : Nat → Nat → B} (h : A.Is n m F) (hb : b.Is n m G) :
    ∃ A', A.subAssign b = .ok A' ∧ A'.Is n m (fun i j => F i j - G i j) := by
  obtain ⟨s, e, hi⟩ := Dense.zip_is (fun u v => u - v) h hb
  exact ⟨_, by simp only [DMat.subAssign, e]; rfl, hi⟩

/-- `A.transpose()` is the `m x n` matrix with element `(j,i)` equal to `A[i][j]`. -/
theorem C15_transpose (init : Nat → B) {A : DMat B} {n m : Nat} {F : Nat → Nat → B} (h : A.Is n m F) :
    ∃ T, A.transpose init = .ok T ∧ T.Is m n (fun j i => F i j) := by
  obtain ⟨⟨F0, h0⟩, _⟩ := C15_make init A m n
  unfold DMat.transpose
  rw [h.1, h.2.1]
  obtain ⟨T, e, hT⟩ := forRangeM_inv n
    (fun i out => forRangeM m (fun j out => transposeStep A i j out) out)
    (fun i out => out.Is m n (fun l k => if k < i then F k l else F0 l k)) (make init m n)
    (h0.congr (by intros; simp)) (by
      intro i out hi ho
      obtain ⟨out', e, h'⟩ := forRangeM_inv m (fun j out => transposeStep A i j out)
        (fun j out => out.Is m n (fun l k => if k < i ∨ (k = i ∧ l < j) then F k l else F0 l k)) out
        (ho.congr (by intros; simp)) (by
          intro j out hj ho
          obtain ⟨out', e, h'⟩ := ho.set (F i j) hj hi
          refine ⟨out', by simp [transposeStep, h.2.2.2.2 i j hi hj, e], h'.congr ?_⟩
          intro l k hl hk
          by_cases e : l = j ∧ k = i
          · simp [e.1, e.2]
          · rw [if_neg e]
            have : (k < i ∨ (k = i ∧ l < j)) ↔ (k < i ∨ (k = i ∧ l < j + 1)) := by omega
            simp only [this])
      refine ⟨out', e, h'.congr ?_⟩
      intro l k hl hk
      have : (k < i ∨ (k = i ∧ l < m)) ↔ k < i + 1 := by omega
      simp only [this])
  refine ⟨T, e, hT.congr ?_⟩
  intro l k _ hk
  simp [hk]

/-- `m1 * m2` is the matrix product. -/
theorem C15_mul [NonUnitalNonAssocSemiring B] (init : Nat → B) {A D : DMat B} {n l m : Nat} {F G : Nat → Nat → B}
    (hA : A.Is n l F) (hD : D.Is l m G) :
    ∃ C, A.mul init D = .ok C ∧ C.Is n m (fun i j => ∑ k ∈ Finset.range l, F i k * G k j) := by
  obtain ⟨⟨F0, h0⟩, _⟩ := C15_make init A n m
  obtain ⟨Z, ez, hZ⟩ := C15_fill (fun z : B => z) 0 h0
  unfold DMat.mul
  rw [hA.1, hD.2.1, ez, hA.2.1]
  simp only [Res.ok_bind]
  rw [hZ.1]
  obtain ⟨C, e, hC⟩ := forRangeM_inv n
    (fun i out => forRangeM out.cols (fun j out => forRangeM l (fun k out => mulStep A D i j k out) out) out)
    (fun i out => out.Is n m (fun a b => if a < i then ∑ k ∈ Finset.range l, F a k * G k b else 0)) Z
    (hZ.congr (by intros; simp)) (by
      intro i out hi ho
      rw [ho.2.1]
      obtain ⟨out', e, h'⟩ := forRangeM_inv m
        (fun j out => forRangeM l (fun k out => mulStep A D i j k out) out)
        (fun j out => out.Is n m (fun a b => if a < i ∨ (a = i ∧ b < j) then
          ∑ k ∈ Finset.range l, F a k * G k b else 0)) out
        (ho.congr (by intros; simp)) (by
          intro j out hj ho
          obtain ⟨out', e, h'⟩ := forRangeM_inv l (fun k out => mulStep A D i j k out)
            (fun k out => out.Is n m (fun a b => if a = i ∧ b = j then ∑ k ∈ Finset.range k, F a k * G k b else
              if a < i ∨ (a = i ∧ b < j) then ∑ k ∈ Finset.range l, F a k * G k b else 0)) out
            (ho.congr (by
              intro a b _ _
              by_cases e : a = i ∧ b = j
              · have : ¬ (a < i ∨ (a = i ∧ b < j)) := by omega
                simp [e]
              · simp [e])) (by
              intro k out hk ho
              have hget := ho.2.2.2.2 i j hi hj
              simp only [and_self, if_true] at hget
              obtain ⟨out', e, h'⟩ := ho.set ((∑ k ∈ Finset.range k, F i k * G k j) + F i k * G k j) hi hj
              refine ⟨out', by simp [mulStep, hA.2.2.2.2 i k hi hk, hD.2.2.2.2 k j hk hj, hget, e], h'.congr ?_⟩
              intro a b _ _
              by_cases e : a = i ∧ b = j
              · simp [e, Finset.sum_range_succ]
              · simp [e])
          refine ⟨out', e, h'.congr ?_⟩
          intro a b _ _
          by_cases e : a = i ∧ b = j
          · simp [e]
          · have : (a < i ∨ (a = i ∧ b < j)) ↔ (a < i ∨ (a = i ∧ b < j + 1)) := by omega
            simp only [e, if_false, this])
      refine ⟨out', e, h'.congr ?_⟩
      intro a b _ hb
      have : (a < i ∨ (a = i ∧ b < m)) ↔ a < i + 1 := by omega
      simp only [this])
  refine ⟨C, e, hC.congr ?_⟩
  intro a b ha _
  simp [ha]

end Objects

section Kernels
variable {B X Y : Type} [AddCommGroup B] [AddCommGroup X] [AddCommGroup Y]

theorem Dense.gather {A : DMat B} {n m : Nat} {F : Nat → Nat → B} (hA : A.Is n m F) {x : List X} {u : Nat → X}
    (hx : VecIs x m u) (f : B → X → Y → Y) (g : B → X → Y) (hf : ∀ a xj yi, f a xj yi = yi + g a xj) (i : Nat)
    (hi : i < n) {y : List Y} {w : Nat → Y} (hy : VecIs y n w) :
    ∃ y', forRangeM m (fun j y => gatherStep A f x i j y) y = .ok y' ∧
      VecIs y' n (fun k => w k + if k = i then ∑ j ∈ Finset.range m, g (F k j) (u j) else 0) := by
  obtain ⟨y', e, h'⟩ := loop_sum m n (fun j y => gatherStep A f x i j y)
    (fun j k => if k = i then g (F k j) (u j) else 0) (by
      intro j y w hj hy
      obtain ⟨y', e, h'⟩ := hy.wr (f (F i j) (u j) (w i)) hi
      refine ⟨y', by simp [gatherStep, hx.2 j hj, hy.2 i hi, hA.2.2.2.2 i j hi hj, e], h'.congr ?_⟩
      intro k _
      by_cases e : k = i
      · subst e; simp [hf]
      · simp [upd_ne _ _ e, e]) y w hy
  refine ⟨y', e, h'.congr ?_⟩
  intro k _
  by_cases e : k = i <;> simp [e]

theorem Dense.gather_all {A : DMat B} {n m : Nat} {F : Nat → Nat → B} (hA : A.Is n m F) {x : List X} {u : Nat → X}
    (hx : VecIs x m u) (f : B → X → Y → Y) (g : B → X → Y) (hf : ∀ a xj yi, f a xj yi = yi + g a xj)
    {y : List Y} {w : Nat → Y} (hy : VecIs y n w) :
    ∃ y', A.loops (gatherStep A f x) y = .ok y' ∧
      VecIs y' n (fun i => w i + ∑ j ∈ Finset.range m, g (F i j) (u j)) := by
  unfold DMat.loops
  rw [hA.1, hA.2.1]
  obtain ⟨y', e, h'⟩ := loop_sum n n (fun i y => forRangeM m (fun j y => gatherStep A f x i j y) y)
    (fun i k => if k = i then ∑ j ∈ Finset.range m, g (F k j) (u j) else 0)
    (by intro i y w hi hy; exact Dense.gather hA hx f g hf i hi hy) y w hy
  refine ⟨y', e, h'.congr ?_⟩
  intro k hk
  simp [hk]

/-- `umv`: y += A x. -/
theorem C15_umv (β : BlockAct B X Y) {A : DMat B} {n m : Nat} {F : Nat → Nat → B} (hA : A.Is n m F) {x : List X}
    {u : Nat → X} (hx : VecIs x m u) {y : List Y} {w : Nat → Y} (hy : VecIs y n w) :
    ∃ y', A.umv β x y = .ok y' ∧ VecIs y' n (fun i => w i + ∑ j ∈ Finset.range m, β.mul (F i j) (u j)) :=
  Dense.gather_all hA hx (fun a xj yi => yi + β.mul a xj) (fun a xj => β.mul a xj) (by intros; rfl) hy

/-- `mmv`: y -= A x. -/
theorem C15_mmv (β : BlockAct B X Y) {A : DMat B} {n m : Nat} {F : Nat → Nat → B} (hA : A.Is n m F) {x : List X}
    {u : Nat → X} (hx : VecIs x m u) {y : List Y} {w : Nat → Y} (hy : VecIs y n w) :
    ∃ y', A.mmv β x y = .ok y' ∧ VecIs y' n (fun i => w i - ∑ j ∈ Finset.range m, β.mul (F i j) (u j)) := by
  obtain ⟨y', e, h⟩ := Dense.gather_all hA hx (fun a xj yi => yi - β.mul a xj) (fun a xj => - β.mul a xj)
    (by intros; exact sub_eq_add_neg _ _) hy
  exact ⟨y', e, h.congr (by intros; rw [Finset.sum_neg_distrib, sub_eq_add_neg])⟩

/-- `usmv`: y += alpha A x. -/
theorem C15_usmv {K : Type} [Ring K] [Module K Y] (alpha : K) (β : BlockAct B X Y) {A : DMat B} {n m : Nat}
    {F : Nat → Nat → B} (hA : A.Is n m F) {x : List X} {u : Nat → X} (hx : VecIs x m u) {y : List Y} {w : Nat → Y}
    (hy : VecIs y n w) :
    ∃ y', A.usmv β alpha x y = .ok y' ∧ VecIs y' n (fun i => w i + alpha • ∑ j ∈ Finset.range m, β.mul (F i j) (u j)) := by
  obtain ⟨y', e, h⟩ := Dense.gather_all hA hx (fun a xj yi => yi + alpha • β.mul a xj) (fun a xj => alpha • β.mul a xj)
    (by intros; rfl) hy
  exact ⟨y', e, h.congr (by intros; rw [Finset.smul_sum])⟩

/-- `mv`: y = A x; also for a matrix without columns, where y becomes zero. -/
theorem C15_mv (β : BlockAct B X Y) {A : DMat B} {n m : Nat} {F : Nat → Nat → B} (hA : A.Is n m F) {x : List X}
    {u : Nat → X} (hx : VecIs x m u) {y : List Y} {w : Nat → Y} (hy : VecIs y n w) :
    ∃ y', A.mv β x y = .ok y' ∧ VecIs y' n (fun i => ∑ j ∈ Finset.range m, β.mul (F i j) (u j)) := by
  unfold DMat.mv
  rw [hA.1]
  obtain ⟨y', e, h'⟩ := forRangeM_inv n (fun i y => mvRow β A x i y)
    (fun i y => VecIs y n (fun k => if k < i then ∑ j ∈ Finset.range m, β.mul (F k j) (u j) else w k)) y
    (hy.congr (by intros; simp)) (by
      intro i y hi hy
      obtain ⟨y1, e1, h1⟩ := hy.wr 0 hi
      obtain ⟨y2, e2, h2⟩ := Dense.gather hA hx (fun a xj yi => yi + β.mul a xj) (fun a xj => β.mul a xj)
        (by intros; rfl) i hi h1
      refine ⟨y2, ?_, h2.congr ?_⟩
      · unfold mvRow
        rw [e1, hA.2.1]
        exact e2
      · intro k _
        by_cases e : k = i
        · subst e; simp
        · have : k < i ↔ k < i + 1 := by omega
          simp [upd_ne _ _ e, e, this])
  refine ⟨y', e, h'.congr ?_⟩
  intro k hk
  simp [hk]

/-- `m * vec`: a new vector A x. -/
theorem C15_mulVec (β : BlockAct B X Y) {A : DMat B} {n m : Nat} {F : Nat → Nat → B} (hA : A.Is n m F) {x : List X}
    {u : Nat → X} (hx : VecIs x m u) :
    ∃ y', A.mulVec β x = .ok y' ∧ VecIs y' n (fun i => ∑ j ∈ Finset.range m, β.mul (F i j) (u j)) := by
  have hz : VecIs (List.replicate n (0 : Y)) n (fun _ => 0) :=
    ⟨by simp, by intro i hi; rw [rd_ok]; simp [hi]⟩
  obtain ⟨y', e, h⟩ := Dense.gather_all hA hx (fun a xj yi => yi + β.mul a xj) (fun a xj => β.mul a xj)
    (by intros; rfl) hz
  refine ⟨y', ?_, h.congr (by intros; simp)⟩
  rw [← e]
  unfold DMat.mulVec DMat.loops
  rw [hA.1, hA.2.1, hx.1]

theorem Dense.scatter {A : DMat B} {n m : Nat} {F : Nat → Nat → B} (hA : A.Is n m F) {x : List Y} {u : Nat → Y}
    (hx : VecIs x n u) (f : B → Y → X → X) (g : B → Y → X) (hf : ∀ a xi yj, f a xi yj = yj + g a xi)
    {y : List X} {w : Nat → X} (hy : VecIs y m w) :
    ∃ y', A.loops (scatterStep A f x) y = .ok y' ∧
      VecIs y' m (fun j => w j + ∑ i ∈ Finset.range n, g (F i j) (u i)) := by
  unfold DMat.loops
  rw [hA.1, hA.2.1]
  refine loop_sum n m (fun i y => forRangeM m (fun j y => scatterStep A f x i j y) y)
    (fun i k => g (F i k) (u i)) ?_ y w hy
  intro i y w hi hy
  obtain ⟨y', e, h'⟩ := loop_sum m m (fun j y => scatterStep A f x i j y)
    (fun j k => if k = j then g (F i k) (u i) else 0) (by
      intro j y w hj hy
      obtain ⟨y', e, h'⟩ := hy.wr (f (F i j) (u i) (w j)) hj
      refine ⟨y', by simp [scatterStep, hx.2 i hi, hy.2 j hj, hA.2.2.2.2 i j hi hj, e], h'.congr ?_⟩
      intro k _
      by_cases e : k = j
      · subst e; simp [hf]
      · simp [upd_ne _ _ e, e]) y w hy
  refine ⟨y', e, h'.congr ?_⟩
  intro k hk
  simp [hk]

/-- `umtv`: y += A^T x. -/
theorem C15_umtv (β : BlockAct B X Y) {A : DMat B} {n m : Nat} {F : Nat → Nat → B} (hA : A.Is n m F) {x : List Y}
    {u : Nat → Y} (hx : VecIs x n u) {y : List X} {w : Nat → X} (hy : VecIs y m w) :
    ∃ y', A.umtv β x y = .ok y' ∧ VecIs y' m (fun j => w j + ∑ i ∈ Finset.range n, β.tmul (F i j) (u i)) :=
  Dense.scatter hA hx (fun a xi yj => yj + β.tmul a xi) (fun a xi => β.tmul a xi) (by intros; rfl) hy

/-- `mtv`: y = A^T x. -/
theorem C15_mtv (β : BlockAct B X Y) {A : DMat B} {n m : Nat} {F : Nat → Nat → B} (hA : A.Is n m F) {x : List Y}
    {u : Nat → Y} (hx : VecIs x n u) {y : List X} {w : Nat → X} (hy : VecIs y m w) :
    ∃ y', A.mtv β x y = .ok y' ∧ VecIs y' m (fun j => ∑ i ∈ Finset.range n, β.tmul (F i j) (u i)) := by
  obtain ⟨z, ez, hz⟩ := forRangeM_inv m (fun i (y : List X) => Istl.wr y i 0)
    (fun i y => VecIs y m (fun k => if k < i then 0 else w k)) y (hy.congr (by intros; simp)) (by
      intro i y hi hy
      obtain ⟨y', e, h'⟩ := hy.wr 0 hi
      refine ⟨y', e, h'.congr ?_⟩
      intro k _
      by_cases e : k = i
      · subst e; simp
      · have : k < i ↔ k < i + 1 := by omega
        simp [upd_ne _ _ e, this])
  obtain ⟨y', e, h'⟩ := C15_umtv β hA hx hz
  refine ⟨y', ?_, h'.congr (by intro k hk; simp [hk])⟩
  unfold DMat.mtv
  rw [hy.1, ez]
  exact e

/-- `mmtv`: y -= A^T x. -/
theorem C15_mmtv (β : BlockAct B X Y) {A : DMat B} {n m : Nat} {F : Nat → Nat → B} (hA : A.Is n m F) {x : List Y}
    {u : Nat → Y} (hx : VecIs x n u) {y : List X} {w : Nat → X} (hy : VecIs y m w) :
    ∃ y', A.mmtv β x y = .ok y' ∧ VecIs y' m (fun j => w j - ∑ i ∈ Finset.range n, β.tmul (F i j) (u i)) := by
  obtain ⟨y', e, h⟩ := Dense.scatter hA hx (fun a xi yj => yj - β.tmul a xi) (fun a xi => - β.tmul a xi)
    (by intros; exact sub_eq_add_neg _ _) hy
  exact ⟨y', e, h.congr (by intros; rw [Finset.sum_neg_distrib, sub_eq_add_neg])⟩

/-- `usmtv`: y += alpha A^T x. -/
theorem C15_usmtv {K : Type} [Ring K] [Module K X] (alpha : K) (β : BlockAct B X Y) {A : DMat B} {n m : Nat}
    {F : Nat → Nat → B} (hA : A.Is n m F) {x : List Y} {u : Nat → Y} (hx : VecIs x n u) {y : List X} {w : Nat → X}
    (hy : VecIs y m w) :
    ∃ y', A.usmtv β alpha x y = .ok y' ∧
      VecIs y' m (fun j => w j + alpha • ∑ i ∈ Finset.range n, β.tmul (F i j) (u i)) := by
  obtain ⟨y', e, h⟩ := Dense.scatter hA hx (fun a xi yj => yj + alpha • β.tmul a xi) (fun a xi => alpha • β.tmul a xi)
    (by intros; rfl) hy
  exact ⟨y', e, h.congr (by intros; rw [Finset.smul_sum])⟩

/-- `umhv`: y += A^H x. -/
theorem C15_umhv (β : BlockAct B X Y) {A : DMat B} {n m : Nat} {F : Nat → Nat → B} (hA : A.Is n m F) {x : List Y}
    {u : Nat → Y} (hx : VecIs x n u) {y : List X} {w : Nat → X} (hy : VecIs y m w) :
    ∃ y', A.umhv β x y = .ok y' ∧ VecIs y' m (fun j => w j + ∑ i ∈ Finset.range n, β.hmul (F i j) (u i)) :=
  Dense.scatter hA hx (fun a xi yj => yj + β.hmul a xi) (fun a xi => β.hmul a xi) (by intros; rfl) hy

/-- `mmhv`: y -= A^H x. -/
theorem C15_mmhv (β : BlockAct B X Y) {A : DMat B} {n m : Nat} {F : Nat → Nat → B} (hA : A.Is n m F) {x : List Y}
    {u : Nat → Y} (hx : VecIs x n u) {y : List X} {w : Nat → X} (hy : VecIs y m w) :
    ∃ y', A.mmhv β x y = .ok y' ∧ VecIs y' m (fun j => w j - ∑ i ∈ Finset.range n, β.hmul (F i j) (u i)) := by
  obtain ⟨y', e, h⟩ := Dense.scatter hA hx (fun a xi yj => yj - β.hmul a xi) (fun a xi => - β.hmul a xi)
    (by intros; exact sub_eq_add_neg _ _) hy
  exact ⟨y', e, h.congr (by intros; rw [Finset.sum_neg_distrib, sub_eq_add_neg])⟩

/-- `usmhv`: y += alpha A^H x. -/
theorem C15_usmhv {K : Type} [Ring K] [Module K X] (alpha : K) (β : BlockAct B X Y) {A : DMat B} {n m : Nat}
    {F : Nat → Nat → B} (hA : A.Is n m F) {x : List Y} {u : Nat → Y} (hx : VecIs x n u) {y : List X} {w : Nat → X}
    (hy : VecIs y m w) :
    ∃ y', A.usmhv β alpha x y = .ok y' ∧
      VecIs y' m (fun j => w j + alpha • ∑ i ∈ Finset.range n, β.hmul (F i j) (u i)) := by
  obtain ⟨y', e, h⟩ := Dense.scatter hA hx (fun a xi yj => yj + alpha • β.hmul a xi) (fun a xi => alpha • β.hmul a xi)
    (by intros; rfl) hy
  exact ⟨y', e, h.congr (by intros; rw [Finset.smul_sum])⟩

end Kernels

section Norms
variable {B R : Type}

theorem Dense.scalarLoop [AddCommMonoid R] (m : Nat) (body : Nat → R → Res R) (g : Nat → R)
    (hb : ∀ j s, j < m → body j s = .ok (s + g j)) (s : R) :
    forRangeM m body s = .ok (s + ∑ j ∈ Finset.range m, g j) := by
  obtain ⟨s', e, h⟩ := forRangeM_inv m body (fun j s' => s' = s + ∑ j ∈ Finset.range j, g j) s (by simp) (by
    intro j s' hj e
    subst e
    exact ⟨_, hb j _ hj, by rw [Finset.sum_range_succ, add_assoc]⟩)
  rw [e, h]

/-- `frobenius_norm2()` is the sum of the block norms over all elements. -/
theorem C15_frobenius [AddCommMonoid R] (nrm2 : B → R) {A : DMat B} {n m : Nat} {F : Nat → Nat → B} (hA : A.Is n m F) :
    A.frobeniusNorm2 nrm2 = .ok (∑ i ∈ Finset.range n, ∑ j ∈ Finset.range m, nrm2 (F i j)) := by
  unfold DMat.frobeniusNorm2
  rw [hA.1, hA.2.1, Dense.scalarLoop n _ (fun i => ∑ j ∈ Finset.range m, nrm2 (F i j))
    (by
      intro i s hi
      exact Dense.scalarLoop m _ (fun j => nrm2 (F i j)) (by intro j s hj; simp [hA.2.2.2.2 i j hi hj]) s), zero_add]

/-- The row iterators visit row `0, 1, ..., N()-1` in order when there is at least one column. -/
theorem C15_rows {A : DMat B} {n m : Nat} {F : Nat → Nat → B} (hA : A.Is n m F) (hm : 0 < m) :
    A.visited (n + 1) 0 0 = List.range n := by
  have key : ∀ k, k ≤ n → A.visited (n + 1 - k) k (k * m) = List.range' k (n - k) := by
    intro k hk
    induction hd : n - k generalizing k with
    | zero =>
      have hkn : k = n := by omega
      subst hkn
      rw [show k + 1 - k = 0 + 1 by omega, DMat.visited, hA.1, hA.2.2.1]
      simp
    | succ d ih =>
      rw [show n + 1 - k = (n + 1 - (k + 1)) + 1 by omega, DMat.visited, hA.1, hA.2.2.1, if_neg]
      · rw [show k * m + m = (k + 1) * m by rw [Nat.add_mul, Nat.one_mul], ih (k + 1) (by omega) (by omega)]
        rfl
      · intro e
        have := Nat.eq_of_mul_eq_mul_right hm e
        omega
  have := key 0 (by omega)
  simpa [List.range_eq_range'] using this

/-- With no columns the row iterators visit nothing at all, although `N()` may be positive. -/
theorem C15_no_columns_counterexample : (make (fun _ => (0 : Int)) 3 0).rows = 3 ∧
    (make (fun _ => (0 : Int)) 3 0).visited 4 0 0 = [] := by decide

/-- `infinity_norm()` is the least upper bound of 0 and the row sums of block norms, in every shape. -/
theorem C15_infinity [AddCommMonoid R] [LinearOrder R] [IsOrderedAddMonoid R] (nrm : B → R) {A : DMat B}
    {n m : Nat} {F : Nat → Nat → B} (hA : A.Is n m F) :
    ∃ v, A.infinityNorm nrm = .ok v ∧ 0 ≤ v ∧ (∀ i, i < n → ∑ j ∈ Finset.range m, nrm (F i j) ≤ v) ∧
      (v = 0 ∨ ∃ i, i < n ∧ v = ∑ j ∈ Finset.range m, nrm (F i j)) := by
  obtain ⟨hr, hc, hcs, hl, hg⟩ := hA
  unfold DMat.infinityNorm
  by_cases hm : m = 0
  · subst hm
    refine ⟨0, ?_, le_rfl, by simp, Or.inl rfl⟩
    rw [DMat.rowLoop, hcs]
    simp
  have hm' : 0 < m := by omega
  set body : Nat → R → Res R := fun off norm => do
    let sum ← forRangeM A.columns (fun j s => do let a ← rd A.p (off + j); .ok (s + nrm a)) 0
    .ok (max sum norm) with hbody
  have hrow : ∀ i norm, i < n → body (i * m) norm = .ok (max (∑ j ∈ Finset.range m, nrm (F i j)) norm) := by
    intro i norm hi
    simp only [hbody]
    rw [hcs, Dense.scalarLoop m _ (fun j => nrm (F i j)) (by
      intro j s hj
      have := hg i j hi hj
      rw [DMat.get, hcs] at this
      simp [this])]
    simp
  have key : ∀ d k v, d = n - k → k ≤ n → 0 ≤ v → (∀ i, i < k → ∑ j ∈ Finset.range m, nrm (F i j) ≤ v) →
      (v = 0 ∨ ∃ i, i < n ∧ v = ∑ j ∈ Finset.range m, nrm (F i j)) →
      ∃ w, A.rowLoop body (n + 1 - k) k (k * m) v = .ok w ∧ 0 ≤ w ∧
        (∀ i, i < n → ∑ j ∈ Finset.range m, nrm (F i j) ≤ w) ∧
        (w = 0 ∨ ∃ i, i < n ∧ w = ∑ j ∈ Finset.range m, nrm (F i j)) := by
    intro d
    induction d with
    | zero =>
      intro k v hd hk h0 hle hex
      have hkn : k = n := by omega
      subst hkn
      refine ⟨v, ?_, h0, hle, hex⟩
      rw [show k + 1 - k = 0 + 1 by omega, DMat.rowLoop, hr, hcs]
      simp
    | succ d ih =>
      intro k v hd hk h0 hle hex
      rw [show n + 1 - k = (n + 1 - (k + 1)) + 1 by omega, DMat.rowLoop, hr, hcs, if_neg]
      · rw [hrow k v (by omega), Res.ok_bind, show k * m + m = (k + 1) * m by rw [Nat.add_mul, Nat.one_mul]]
        apply ih (k + 1) _ (by omega) (by omega) (le_trans h0 (le_max_right _ _))
        · intro i hi
          by_cases e : i = k
          · subst e; exact le_max_left _ _
          · exact le_trans (hle i (by omega)) (le_max_right _ _)
        · rcases max_choice (∑ j ∈ Finset.range m, nrm (F k j)) v with e | e
          · exact Or.inr ⟨k, by omega, e⟩
          · rw [e]; exact hex
      · intro e
        have := Nat.eq_of_mul_eq_mul_right hm' e
        omega
  have := key n 0 0 (by omega) (by omega) le_rfl (by intro i hi; omega) (Or.inl rfl)
  rw [hr]
  simpa using this

end Norms

/-! ### Non-vacuity: a 2 x 3 object -/

/-- the matrix (1 2 3; 4 5 6) -/
def dense23 : DMat ℤ := ⟨[1, 2, 3, 4, 5, 6], 2, 3, 3⟩

theorem dense23_is : dense23.Is 2 3 (fun i j => 3 * i + j + 1) := by
  refine ⟨rfl, rfl, rfl, rfl, ?_⟩
  intro i j hi hj
  interval_cases i <;> interval_cases j <;> decide

example : dense23.transpose (fun _ => 0) = .ok ⟨[1, 4, 2, 5, 3, 6], 3, 2, 2⟩ := by decide
example : (∃ T, dense23.transpose (fun _ => 7) = .ok T ∧ dense23.mul (fun _ => 9) T = .ok ⟨[14, 32, 32, 77], 2, 2, 2⟩) :=
  ⟨⟨[1, 4, 2, 5, 3, 6], 3, 2, 2⟩, by decide, by decide⟩
example : VecIs [1, -1, 2] 3 (fun i => if i = 0 then (1 : ℤ) else if i = 1 then -1 else 2) := by
  refine ⟨rfl, ?_⟩
  intro i hi
  interval_cases i <;> decide
example : dense23.infinityNorm (fun b : ℤ => |b|) = .ok 15 := by decide

end Istl
