import Verif.Lemmas.MatrixDim

/-!
# C64: sizes of nested matrices and the Matlab writer

`MatrixDimension` reports the numbers of rows and columns of the flat matrix behind a nested one, and `writeMatrixToMatlab` writes one
line per stored number, with its row and column counted from one. Both hold when every block column of a `BCRSMatrix` with blocks of
unknown size has a stored block; the theorems on empty rows and columns say what happens otherwise.
-/

namespace Istl
namespace MatDim
open Finset
variable {S : Type}

/-- `rowdim()` and `coldim()` are the numbers of rows and columns of the flat matrix. -/
theorem C64_dims {A : MMat S} {R C : Nat} {P : Nat → Nat → S → Prop} (h : Layout A R C P) (hf : FullCols A) (hC : C < 2 ^ 64) :
    rowdim A = .ok R ∧ coldim A = .ok C :=
  ⟨rowdim_layout h, coldim_layout h hf hC⟩

/-- The lines written are exactly the stored numbers of the flat matrix at their positions counted from one, no position twice. -/
theorem C64_matlab {A : MMat S} {R C : Nat} {P : Nat → Nat → S → Prop} (h : Layout A R C P) (hf : BlocksFull A)
    (hh : HasCols A) (hC : C < 2 ^ 64) :
    ∃ L : List (Nat × Nat × S), matlab A 0 0 = .ok L ∧
      (∀ r c s, (r, c, s) ∈ L ↔ ∃ r' c', r = r' + 1 ∧ c = c' + 1 ∧ P r' c' s) ∧
      (L.map fun e => (e.1, e.2.1)).Nodup ∧ ∀ e ∈ L, 1 ≤ e.1 ∧ e.1 ≤ R ∧ 1 ≤ e.2.1 ∧ e.2.1 ≤ C := by
  obtain ⟨T, h1, h2, h3⟩ := matlab_layout h hf hh hC
  have hmem : ∀ r c s, (r, c, s) ∈ place 0 0 T ↔ ∃ r' c', r = r' + 1 ∧ c = c' + 1 ∧ P r' c' s := by
    intro r c s
    simp only [place, List.mem_map, Nat.zero_add]
    constructor
    · rintro ⟨⟨r', c', s'⟩, he, heq⟩
      simp only [Prod.mk.injEq] at heq
      obtain ⟨rfl, rfl, rfl⟩ := heq
      exact ⟨r', c', rfl, rfl, (h2 _ _ _).mp he⟩
    · rintro ⟨r', c', rfl, rfl, hp⟩
      exact ⟨(r', c', s), (h2 _ _ _).mpr hp, rfl⟩
  refine ⟨_, h1 0 0, hmem, ?_, ?_⟩
  · have e : ((place 0 0 T).map fun e => (e.1, e.2.1)) = (T.map fun e => (e.1, e.2.1)).map fun p => (p.1 + 1, p.2 + 1) := by
      simp [place, Function.comp_def]
    rw [e]
    apply h3.map
    rintro ⟨a, b⟩ ⟨a', b'⟩ hab
    simp only [Prod.mk.injEq] at hab ⊢
    omega
  · rintro ⟨r, c, s⟩ he
    obtain ⟨r', c', rfl, rfl, hp⟩ := (hmem r c s).mp he
    obtain ⟨a, b⟩ := layout_bounds h _ _ _ hp
    exact ⟨Nat.succ_pos _, a, Nat.succ_pos _, b⟩

/-! ### `BCRSMatrix<number>` -/

/-- The sparse matrix of numbers with pattern `pat` and values `a`. -/
def numMat (n m : Nat) (pat : Nat → List Nat) (a : Nat → Nat → S) : MMat S := .node .bcrs n m pat fun i j => .scalar (a i j)

/-- For a `BCRSMatrix` of numbers with no empty row and no empty column the sizes are `N()` and `M()`. -/
theorem C64_numbers_dims (n m : Nat) (pat : Nat → List Nat) (a : Nat → Nat → S)
    (hpat : ∀ i, i < n → (pat i).Nodup ∧ ∀ j ∈ pat i, j < m) (hr : ∀ i, i < n → pat i ≠ [])
    (hc : ∀ j, j < m → ∃ i, i < n ∧ j ∈ pat i) (hm : m < 2 ^ 64) :
    rowdim (numMat n m pat a) = .ok n ∧ coldim (numMat n m pat a) = .ok m := by
  have h := Layout.node (S := S) .bcrs n m pat (fun i j => .scalar (a i j)) (fun _ => 1) (fun _ => 1)
    (fun i j r c x => r = 0 ∧ c = 0 ∧ x = a i j) hpat
    ⟨fun i hi he => absurd he (hr i hi), fun j hj he => by
      obtain ⟨i, hi, hji⟩ := hc j hj; exact absurd hji (he i hi)⟩
    fun i j _ _ => .scalar (a i j)
  have := C64_dims h ⟨hc, fun _ _ _ _ => trivial⟩ (by simpa using hm)
  simpa [numMat] using this

/-- … and every stored number is written once, as `row+1 column+1 value`. -/
theorem C64_numbers_matlab (n m : Nat) (pat : Nat → List Nat) (a : Nat → Nat → S)
    (hpat : ∀ i, i < n → (pat i).Nodup ∧ ∀ j ∈ pat i, j < m) (hr : ∀ i, i < n → pat i ≠ [])
    (hc : ∀ j, j < m → ∃ i, i < n ∧ j ∈ pat i) (h0 : 0 < m) (hm : m < 2 ^ 64) :
    ∃ L : List (Nat × Nat × S), matlab (numMat n m pat a) 0 0 = .ok L ∧
      (∀ r c s, (r, c, s) ∈ L ↔ ∃ i j, i < n ∧ j ∈ pat i ∧ r = i + 1 ∧ c = j + 1 ∧ s = a i j) ∧
      (L.map fun e => (e.1, e.2.1)).Nodup := by
  have h := Layout.node (S := S) .bcrs n m pat (fun i j => .scalar (a i j)) (fun _ => 1) (fun _ => 1)
    (fun i j r c x => r = 0 ∧ c = 0 ∧ x = a i j) hpat
    ⟨fun i hi he => absurd he (hr i hi), fun j hj he => by
      obtain ⟨i, hi, hji⟩ := hc j hj; exact absurd hji (he i hi)⟩
    fun i j _ _ => .scalar (a i j)
  obtain ⟨L, h1, h2, h3, _⟩ := C64_matlab h (fun _ _ _ _ => trivial) ⟨h0, fun _ _ _ _ => trivial⟩ (by simpa using hm)
  refine ⟨L, h1, fun r c s => ?_, h3⟩
  rw [h2]
  constructor
  · rintro ⟨r', c', rfl, rfl, i, j, r'', c'', hi, hj, ⟨rfl, rfl, rfl⟩, rfl, rfl⟩
    exact ⟨i, j, hi, hj, by simp, by simp, rfl⟩
  · rintro ⟨i, j, hi, hj, rfl, rfl, rfl⟩
    exact ⟨i, j, rfl, rfl, i, j, 0, 0, hi, hj, ⟨rfl, rfl, rfl⟩, by simp, by simp⟩

/-- With empty rows or columns the entry `(i,j)` is written at row `1 + ` (number of non-empty rows before `i`) and column
`1 + ` (number of non-empty columns before `j`): the file describes another matrix. -/
theorem C64_empty_rows_shift (n m : Nat) (pat : Nat → List Nat) (a : Nat → Nat → S)
    (hpat : ∀ i, i < n → (pat i).Nodup ∧ ∀ j ∈ pat i, j < m) (h0 : 0 < m) (hm : m < 2 ^ 64) :
    ∃ L : List (Nat × Nat × S), matlab (numMat n m pat a) 0 0 = .ok L ∧
      ∀ r c s, (r, c, s) ∈ L ↔ ∃ i j, i < n ∧ j ∈ pat i ∧
        r = ((range i).filter fun x => pat x ≠ []).card + 1 ∧
        c = ((range j).filter fun y => ∃ x ∈ range n, y ∈ pat x).card + 1 ∧ s = a i j := by
  classical
  have h := Layout.node (S := S) .bcrs n m pat (fun i j => .scalar (a i j)) (fun i => if pat i ≠ [] then 1 else 0)
    (fun j => if ∃ x ∈ range n, j ∈ pat x then 1 else 0)
    (fun i j r c x => r = 0 ∧ c = 0 ∧ x = a i j) hpat
    ⟨fun i hi he => by simp [he], fun j hj he => if_neg (by rintro ⟨x, hx, hj⟩; exact he x (Finset.mem_range.mp hx) hj)⟩
    (fun i j hi hj => by
      rw [if_pos (List.ne_nil_of_mem hj), if_pos ⟨i, Finset.mem_range.mpr hi, hj⟩]
      exact .scalar (a i j))
  have hle : ∑ j ∈ range m, (if ∃ x ∈ range n, j ∈ pat x then 1 else 0) < 2 ^ 64 := by
    refine lt_of_le_of_lt ?_ hm
    rw [← Finset.card_filter]
    exact (Finset.card_filter_le _ _).trans (by simp)
  obtain ⟨L, h1, h2, h3, _⟩ := C64_matlab h (fun _ _ _ _ => trivial) ⟨h0, fun _ _ _ _ => trivial⟩ hle
  refine ⟨L, h1, fun r c s => ?_⟩
  rw [h2]
  simp only [Finset.card_filter]
  constructor
  · rintro ⟨r', c', rfl, rfl, i, j, r'', c'', hi, hj, ⟨rfl, rfl, rfl⟩, rfl, rfl⟩
    exact ⟨i, j, hi, hj, rfl, rfl, rfl⟩
  · rintro ⟨i, j, hi, hj, rfl, rfl, rfl⟩
    exact ⟨_, _, rfl, rfl, i, j, 0, 0, hi, hj, ⟨rfl, rfl, rfl⟩, rfl, rfl⟩

/-- `coldim()` of a `BCRSMatrix` of numbers with `e` empty columns is `M() - e - e` modulo `2^64`: each empty column is counted as the
largest 64-bit number. -/
theorem C64_empty_columns (n m : Nat) (pat : Nat → List Nat) (a : Nat → Nat → S)
    (hpat : ∀ i, i < n → ∀ j ∈ pat i, j < m) :
    coldim (numMat n m pat a) = .ok ((((range m).filter fun j => ∃ i ∈ range n, j ∈ pat i).card +
      ((range m).filter fun j => ∀ i ∈ range n, j ∉ pat i).card * (2 ^ 64 - 1)) % 2 ^ 64) := by
  classical
  have := coldim_bcrs (S := S) (entry := fun i j => .scalar (a i j)) (w := fun j => if ∃ x ∈ range n, j ∈ pat x then 1 else 0) hpat
    (fun i j hi hj => by rw [if_pos ⟨i, Finset.mem_range.mpr hi, hj⟩]; rfl)
    (fun j hj he => if_neg (by rintro ⟨x, hx, hj⟩; exact he x (Finset.mem_range.mp hx) hj))
  unfold numMat
  rw [this, Finset.card_filter (fun j => ∃ i ∈ range n, j ∈ pat i)]
  simp only [Finset.mem_range, W]

/-! ### Counterexamples -/

/-- The `2 × 2` matrix with the single entry `7` at row `1`, column `1`. -/
def demoHole : MMat Nat := numMat 2 2 (fun i => if i = 1 then [1] else []) fun _ _ => 7

/-- `BCRSMatrix<double>` with an empty first row and column: `rowdim` is one instead of two, `coldim` is zero
instead of two, and the entry is written at `1 1` instead of `2 2`. -/
theorem C64_hole_counterexample :
    rowdim demoHole = .ok 1 ∧ coldim demoHole = .ok 0 ∧ matlab demoHole 0 0 = .ok [(1, 1, 7)] := by
  refine ⟨by decide +kernel, by decide +kernel, by decide +kernel⟩

/-- A `BCRSMatrix<FieldMatrix>` has no such problem: its blocks have a fixed size. Stored: one `1 × 1` block at `(1,1)`. -/
def demoField : MMat Nat := .node (.bcrsField 1 1) 2 2 (fun i => if i = 1 then [1] else []) fun _ _ =>
  .node .flat 1 1 (fun _ => [0]) fun _ _ => .scalar 7

example : rowdim demoField = .ok 2 ∧ coldim demoField = .ok 2 ∧ matlab demoField 0 0 = .ok [(2, 2, 7)] := by
  refine ⟨by decide +kernel, by decide +kernel, by decide +kernel⟩

/-- Writing any matrix without columns runs past the end of the table of column offsets. -/
theorem C64_no_columns_counterexample (k : Kind) (n : Nat) (pat : Nat → List Nat) (entry : Nat → Nat → MMat S) :
    matlab (.node k n 0 pat entry) 0 0 = .ub := by
  unfold matlab colOffsets
  rw [if_pos rfl]
  rfl

/-! ### A concrete matrix meeting the hypotheses: `BCRSMatrix<FieldMatrix<2,1>>` with two block rows and three block columns -/

/-- Blocks at `(0,0)`, `(0,2)` and `(1,1)`. -/
def demoPat : Nat → List Nat := fun i => if i = 0 then [0, 2] else [1]

def demoBlocks : MMat Nat := .node (.bcrsField 2 1) 2 3 demoPat fun i j =>
  .node .flat 2 1 (fun _ => [0]) fun r _ => .scalar (100 * i + 10 * j + r)

example : ∃ P, Layout demoBlocks 4 3 P ∧ FullCols demoBlocks ∧ BlocksFull demoBlocks ∧ HasCols demoBlocks := by
  refine ⟨_, Layout.node (.bcrsField 2 1) 2 3 demoPat _ (fun _ => 2) (fun _ => 1) _ ?_ ⟨fun _ _ => rfl, fun _ _ => rfl⟩
    (fun i j _ _ => Layout.node .flat 2 1 (fun _ => [0]) _ (fun _ => 1) (fun _ => 1) _ ?_ ⟨fun _ _ => rfl, fun _ _ => rfl⟩
      fun r c _ _ => .scalar _), ?_, ?_, ?_⟩
  · unfold demoPat
    intro i hi
    split <;> simp
  · intro i hi; simp
  · intro i j _ _ r c _ _; trivial
  · intro i j _ _ r c _ _; trivial
  · exact ⟨by decide, fun i j _ _ => ⟨by decide, fun r c _ _ => trivial⟩⟩

example : matlab demoBlocks 0 0 =
    .ok [(1, 1, 0), (2, 1, 1), (1, 3, 20), (2, 3, 21), (3, 2, 110), (4, 2, 111)] := by
  decide +kernel

end MatDim
end Istl
