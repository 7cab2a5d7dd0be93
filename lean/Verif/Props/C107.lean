import Verif.Model.DenseChk
import Verif.Props.C15
import Verif.Lemmas.RowStmt

/-!
# C107: the dense `Matrix` with `DUNE_ISTL_WITH_CHECKING`

Matrices stand for values as after any sequence of operations (`DMat.Is`); the arguments have any size.
-/

namespace Istl
open DMat

section Access
variable {B : Type}

/-- `A[i][j]`, read and written: the right element, or `ISTLError` outside of the matrix; never an access outside. -/
theorem C107_access {A : DMat B} {n m : Nat} {F : Nat → Nat → B} (hA : A.Is n m F) (i j : Nat) (b : B) :
    (i < n ∧ j < m → A.getChk i j = .ok (F i j) ∧
      ∃ A', A.setChk i j b = .ok A' ∧ A'.Is n m (fun k l => if k = i ∧ l = j then b else F k l)) ∧
    (¬ (i < n ∧ j < m) → A.getChk i j = .throw .istlError ∧ A.setChk i j b = .throw .istlError) := by
  have h1 := hA.1
  have h3 := hA.2.2.1
  constructor
  · rintro ⟨hi, hj⟩
    obtain ⟨A', e, h⟩ := hA.set b hi hj
    refine ⟨?_, A', ?_, h⟩
    · simp [getChk, h1, h3, show ¬ n ≤ i by omega, show ¬ m ≤ j by omega, hA.2.2.2.2 i j hi hj]
    · simp [setChk, h1, h3, show ¬ n ≤ i by omega, show ¬ m ≤ j by omega, e]
  · intro h
    by_cases hi : n ≤ i
    · simp [getChk, setChk, h1, hi]
    · have hj : m ≤ j := by omega
      simp [getChk, setChk, h1, h3, hi, hj]

/-- `A.exists(i,j)` does not look at `j`: it is `true` if the row number is smaller than both `N()` and `M()`, otherwise it throws. -/
theorem C107_exists {A : DMat B} {n m : Nat} {F : Nat → Nat → B} (hA : A.Is n m F) (i j : Nat) :
    A.existsChk i j = if i < n ∧ i < m then .ok true else .throw .istlError := by
  have h1 := hA.1
  have h2 := hA.2.1
  unfold existsChk
  rw [h1, h2]
  by_cases hi : i < n
  · by_cases hj : i < m
    · simp [show ¬ n ≤ i by omega, show ¬ m ≤ i by omega, hi, hj]
    · simp [show m ≤ i by omega, hj]
  · simp [show n ≤ i by omega, hi]

/-- A matrix with more rows than columns (and a column) has an entry for which `exists` throws; a matrix with rows and columns has, for every
column number outside, a pair for which `exists` says `true`. -/
theorem C107_exists_counterexample {A : DMat B} {n m : Nat} {F : Nat → Nat → B} (hA : A.Is n m F) (hn : 0 < n) (hm : 0 < m) :
    (m < n → A.getChk m 0 = .ok (F m 0) ∧ A.existsChk m 0 = .throw .istlError) ∧
      ∀ j, m ≤ j → A.getChk 0 j = .throw .istlError ∧ A.existsChk 0 j = .ok true := by
  refine ⟨fun h => ⟨((C107_access hA m 0 (F 0 0)).1 ⟨h, hm⟩).1, ?_⟩, fun j hj => ⟨((C107_access hA 0 j (F 0 0)).2 (by omega)).1, ?_⟩⟩
  · rw [C107_exists hA]; simp
  · rw [C107_exists hA]; simp [hn, hm]

/-- `A += b` and `A -= b` for matrices of any sizes. -/
theorem C107_add_sub [Add B] [Sub B] {A b : DMat B} {n m k l : Nat} {F G : Nat → Nat → B} (hA : A.Is n m F) (hb : b.Is k l G) :
    (k = n ∧ l = m → (∃ A', A.addChk b = .ok A' ∧ A'.Is n m (fun i j => F i j + G i j)) ∧
      ∃ A', A.subChk b = .ok A' ∧ A'.Is n m (fun i j => F i j - G i j)) ∧
    (¬ (k = n ∧ l = m) → A.addChk b = .throw .rangeError ∧ A.subChk b = .throw .rangeError) := by
  constructor
  · rintro ⟨rfl, rfl⟩
    have h : ¬ (A.rows ≠ b.rows ∨ A.cols ≠ b.cols) := by simp [hA.1, hA.2.1, hb.1, hb.2.1]
    unfold addChk subChk
    rw [if_neg h, if_neg h]
    exact ⟨C15_add hA hb, C15_sub hA hb⟩
  · intro h
    have h : A.rows ≠ b.rows ∨ A.cols ≠ b.cols := by rw [hA.1, hA.2.1, hb.1, hb.2.1]; omega
    unfold addChk subChk
    rw [if_pos h, if_pos h]
    exact ⟨rfl, rfl⟩

/-- `A * D` for an `n x l` and a `k x m` matrix: the sizes are not compared. With `l < k` the last rows of `D` are left out silently, with
`l > k` the access to a missing row throws. -/
theorem C107_product [NonUnitalNonAssocSemiring B] (init : Nat → B) {A D : DMat B} {n l k m : Nat} {F G : Nat → Nat → B}
    (hA : A.Is n l F) (hD : D.Is k m G) :
    (l ≤ k ∨ n = 0 ∨ m = 0 → ∃ C, A.mulChk init D = .ok C ∧ C.Is n m (fun i j => ∑ q ∈ Finset.range l, F i q * G q j)) ∧
      (¬ (l ≤ k ∨ n = 0 ∨ m = 0) → A.mulChk init D = .throw .istlError) := by
  obtain ⟨⟨F0, h0⟩, _⟩ := C15_make init A n m
  obtain ⟨Z, ez, hZ⟩ := C15_fill (fun z : B => z) 0 h0
  have hstep : ∀ {i j q : Nat} {out : DMat B} {H : Nat → Nat → B}, i < n → j < m → q < l → q < k → out.Is n m H →
      ∃ out', mulStepChk A D i j q out = .ok out' ∧ out'.Is n m (fun a b => if a = i ∧ b = j then H i j + F i q * G q j else H a b) := by
    intro i j q out H hi hj hq hqk ho
    obtain ⟨out', e, h'⟩ := ((C107_access ho i j (H i j + F i q * G q j)).1 ⟨hi, hj⟩).2
    refine ⟨out', ?_, h'⟩
    simp [mulStepChk, ((C107_access hA i q (F i q)).1 ⟨hi, hq⟩).1, ((C107_access hD q j (F i q)).1 ⟨hqk, hj⟩).1,
      ((C107_access ho i j (F i q)).1 ⟨hi, hj⟩).1, e]
  unfold mulChk
  rw [hA.1, hD.2.1, ez, hA.2.1]
  simp only [Res.ok_bind]
  rw [hZ.1]
  constructor
  · intro hfit
    obtain ⟨C, e, hC⟩ := forRangeM_inv n
      (fun i out => forRangeM out.cols (fun j out => forRangeM l (fun q out => mulStepChk A D i j q out) out) out)
      (fun i out => out.Is n m (fun a b => if a < i then ∑ q ∈ Finset.range l, F a q * G q b else 0)) Z
      (hZ.congr (by intros; simp)) (by
        intro i out hi ho
        rw [ho.2.1]
        obtain ⟨out', e, h'⟩ := forRangeM_inv m
          (fun j out => forRangeM l (fun q out => mulStepChk A D i j q out) out)
          (fun j out => out.Is n m (fun a b => if a < i ∨ (a = i ∧ b < j) then
            ∑ q ∈ Finset.range l, F a q * G q b else 0)) out
          (ho.congr (by intros; simp)) (by
            intro j out hj ho
            obtain ⟨out', e, h'⟩ := forRangeM_inv l (fun q out => mulStepChk A D i j q out)
              (fun q out => out.Is n m (fun a b => if a = i ∧ b = j then ∑ q ∈ Finset.range q, F a q * G q b else
                if a < i ∨ (a = i ∧ b < j) then ∑ q ∈ Finset.range l, F a q * G q b else 0)) out
              (ho.congr (by
                intro a b _ _
                by_cases e : a = i ∧ b = j
                · simp [e]
                · simp [e])) (by
                intro q out hq ho
                obtain ⟨out', e, h'⟩ := hstep hi hj hq (by omega) ho
                refine ⟨out', e, h'.congr ?_⟩
                intro a b _ _
                by_cases e : a = i ∧ b = j
                · simp [e, Finset.sum_range_succ]
                · simp [e])
            refine ⟨out', e, h'.congr ?_⟩
            intro a b _ _
            by_cases e : a = i ∧ b = j
            · simp [e]
            · have : (a < i ∨ (a = i ∧ b < j)) ↔ (a < i ∨ (a = i ∧ b < j + 1)) := by omega
              simp only [e, if_false, this])
        refine ⟨out', e, h'.congr ?_⟩
        intro a b _ hb
        have : (a < i ∨ (a = i ∧ b < m)) ↔ a < i + 1 := by omega
        simp only [this])
    refine ⟨C, e, hC.congr ?_⟩
    intro a b ha _
    simp [ha]
  · intro hbad
    have hlk : k < l := by omega
    have hn : 0 < n := by omega
    have hm : 0 < m := by omega
    obtain ⟨S, e, -⟩ := forRangeM_inv k (fun q out => mulStepChk A D 0 0 q out) (fun _ out => ∃ H, out.Is n m H) Z ⟨_, hZ⟩ (by
      rintro q out hq ⟨H, ho⟩
      obtain ⟨out', e, h'⟩ := hstep hn hm (by omega) hq ho
      exact ⟨out', e, _, h'⟩)
    have hthrow : mulStepChk A D 0 0 k S = .throw .istlError := by
      simp [mulStepChk, ((C107_access hA 0 k (F 0 0)).1 ⟨hn, hlk⟩).1, ((C107_access hD k 0 (F 0 0)).2 (by omega)).1, bind, Res.bind]
    refine RowStmt.forRangeM_throw (k := 0) (s' := Z) (forRangeM_zero _ _) ?_ n hn
    rw [hZ.2.1]
    refine RowStmt.forRangeM_throw (k := 0) (s' := Z) (forRangeM_zero _ _) ?_ m hm
    exact RowStmt.forRangeM_throw e hthrow l hlk

end Access

section Kernels
variable {B K X Y : Type} [AddCommGroup B] [AddCommGroup X] [AddCommGroup Y] [Ring K]

/-- What the kernel puts into `y[i]`: old value, element of the product. -/
def gatherValue [Module K Y] : DMat.Gather K → Y → Y → Y
  | .mv, _, s => s
  | .umv, w, s => w + s
  | .mmv, w, s => w - s
  | .usmv a, w, s => w + a • s

/-- What the kernel puts into `y[j]`: old value, elements of the products with the transposed and the adjoint matrix. -/
def scatterValue [Module K X] : DMat.Scatter K → X → X → X → X
  | .mtv, _, t, _ => t
  | .umtv, w, t, _ => w + t
  | .mmtv, w, t, _ => w - t
  | .usmtv a, w, t, _ => w + a • t
  | .umhv, w, _, h => w + h
  | .mmhv, w, _, h => w - h
  | .usmhv a, w, _, h => w + a • h

theorem vecIs_getD {Z : Type} [Zero Z] (y : List Z) : VecIs y y.length (fun i => y.getD i 0) := by
  refine ⟨rfl, fun i hi => ?_⟩
  rw [rd_ok]
  simp [hi]

/-- `mv`, `umv`, `mmv`, `usmv` for vectors of any sizes: the product, or `ISTLError` if a size does not fit; never an access outside. -/
theorem C107_gather [Module K Y] (g : DMat.Gather K) (β : BlockAct B X Y) {A : DMat B} {n m : Nat} {F : Nat → Nat → B} (hA : A.Is n m F) (x : List X)
    (y : List Y) :
    (x.length = m ∧ y.length = n → ∃ y', g.chk β A x y = .ok y' ∧
      VecIs y' n (fun i => gatherValue g (y.getD i 0) (∑ j ∈ Finset.range m, β.mul (F i j) (x.getD j 0)))) ∧
    (¬ (x.length = m ∧ y.length = n) → g.chk β A x y = .throw .istlError) := by
  have h1 := hA.1
  have h2 := hA.2.1
  constructor
  · rintro ⟨rfl, rfl⟩
    have hx := vecIs_getD x
    have hy := vecIs_getD y
    cases g with
    | mv => simpa [Gather.chk, h1, h2, gatherValue] using C15_mv β hA hx hy
    | umv => simpa [Gather.chk, h1, h2, gatherValue] using C15_umv β hA hx hy
    | mmv => simpa [Gather.chk, h1, h2, gatherValue] using C15_mmv β hA hx hy
    | usmv a => simpa [Gather.chk, h1, h2, gatherValue] using C15_usmv a β hA hx hy
  · intro h
    by_cases hx : x.length = m
    · have hy : y.length ≠ n := fun e => h ⟨hx, e⟩
      cases g <;> simp [Gather.chk, h1, h2, hx, hy]
    · cases g <;> simp [Gather.chk, h1, h2, hx]

/-- The kernels with the transposed or adjoint matrix for vectors of any sizes. -/
theorem C107_scatter [Module K X] (g : DMat.Scatter K) (β : BlockAct B X Y) {A : DMat B} {n m : Nat} {F : Nat → Nat → B} (hA : A.Is n m F) (x : List Y)
    (y : List X) :
    (x.length = n ∧ y.length = m → ∃ y', g.chk β A x y = .ok y' ∧
      VecIs y' m (fun j => scatterValue g (y.getD j 0) (∑ i ∈ Finset.range n, β.tmul (F i j) (x.getD i 0))
        (∑ i ∈ Finset.range n, β.hmul (F i j) (x.getD i 0)))) ∧
    (¬ (x.length = n ∧ y.length = m) → g.chk β A x y = .throw .istlError) := by
  have h1 := hA.1
  have h2 := hA.2.1
  constructor
  · rintro ⟨rfl, rfl⟩
    have hx := vecIs_getD x
    have hy := vecIs_getD y
    cases g with
    | mtv => simpa [Scatter.chk, h1, h2, scatterValue] using C15_mtv β hA hx hy
    | umtv => simpa [Scatter.chk, h1, h2, scatterValue] using C15_umtv β hA hx hy
    | mmtv => simpa [Scatter.chk, h1, h2, scatterValue] using C15_mmtv β hA hx hy
    | usmtv a => simpa [Scatter.chk, h1, h2, scatterValue] using C15_usmtv a β hA hx hy
    | umhv => simpa [Scatter.chk, h1, h2, scatterValue] using C15_umhv β hA hx hy
    | mmhv => simpa [Scatter.chk, h1, h2, scatterValue] using C15_mmhv β hA hx hy
    | usmhv a => simpa [Scatter.chk, h1, h2, scatterValue] using C15_usmhv a β hA hx hy
  · intro h
    by_cases hx : x.length = n
    · have hy : y.length ≠ m := fun e => h ⟨hx, e⟩
      cases g <;> simp [Scatter.chk, h1, h2, hx, hy]
    · cases g <;> simp [Scatter.chk, h1, h2, hx]

/-- `A * x` for a vector of any size. -/
theorem C107_mulVec (β : BlockAct B X Y) {A : DMat B} {n m : Nat} {F : Nat → Nat → B} (hA : A.Is n m F) (x : List X) :
    (x.length = m → ∃ y, A.mulVecChk β x = .ok y ∧ VecIs y n (fun i => ∑ j ∈ Finset.range m, β.mul (F i j) (x.getD j 0))) ∧
    (x.length ≠ m → A.mulVecChk β x = .throw .istlError) := by
  have h2 := hA.2.1
  constructor
  · rintro rfl
    simpa [mulVecChk, h2] using C15_mulVec β hA (vecIs_getD x)
  · intro h
    simp [mulVecChk, h2, Ne.symm h]

end Kernels

/-! Concrete cases: the 3 x 2 matrix with rows (1 2), (3 4), (5 6). -/

private def demo : DMat Int := ⟨[1, 2, 3, 4, 5, 6], 3, 2, 2⟩
private theorem demo_is : demo.Is 3 2 fun i j => 2 * i + j + 1 := by
  refine ⟨rfl, rfl, rfl, rfl, ?_⟩
  intro i j hi hj
  have : (i = 0 ∨ i = 1 ∨ i = 2) ∧ (j = 0 ∨ j = 1) := by omega
  rcases this with ⟨rfl | rfl | rfl, rfl | rfl⟩ <;> rfl

/-- The entry `A[2][0]` is there, `exists(2,0)` throws, `exists(0,7)` is `true`. -/
example : demo.getChk 2 0 = .ok 5 ∧ demo.existsChk 2 0 = .throw .istlError ∧ demo.existsChk 0 7 = .ok true := by
  obtain ⟨h1, h2⟩ := C107_exists_counterexample demo_is (by decide) (by decide)
  exact ⟨(h1 (by decide)).1, (h1 (by decide)).2, (h2 7 (by decide)).2⟩

/-- `A * A` (3 x 2 times 3 x 2) is no product of matrices, and no exception. -/
example : ∃ C, demo.mulChk (fun _ => 0) demo = .ok C ∧ C.get 2 1 = .ok 34 := by
  obtain ⟨C, h1, h2⟩ := (C107_product (fun _ => 0) demo_is demo_is).1 (.inl (by decide))
  refine ⟨C, h1, ?_⟩
  rw [h2.2.2.2.2 2 1 (by decide) (by decide)]
  decide

private def act : BlockAct Int Int Int := ⟨AddMonoidHom.mul, AddMonoidHom.mul, AddMonoidHom.mul⟩
example : (Gather.umv : Gather Int).chk act demo [1, 1] [0, 0] = .throw .istlError :=
  (C107_gather .umv act demo_is _ _).2 (by decide)
example : ∃ y, (Scatter.usmtv 2 : Scatter Int).chk act demo [1, 0, 1] [5, 5] = .ok y ∧ rd y 1 = .ok 21 := by
  obtain ⟨y, h1, h2⟩ := (C107_scatter (.usmtv (2 : Int)) act demo_is [1, 0, 1] [5, 5]).1 (by decide)
  refine ⟨y, h1, ?_⟩
  rw [h2.2 1 (by decide)]
  decide

end Istl
