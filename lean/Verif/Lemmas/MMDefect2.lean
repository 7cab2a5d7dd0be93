import Verif.Lemmas.MMDefect

/-! What happens after the banner; which errors are possible where. -/

namespace Istl
namespace MM
open Bcrs MatMat

/-! ### Calls that do not throw `MatrixMarketFormatError` -/

/-- The result is not a format error. -/
def RQuiet {α : Type} (x : Res α) : Prop := x ≠ .throw .formatError
/-- The call never throws a format error. -/
def Quiet {σ α : Type} (x : Cmd σ α) : Prop := ∀ s s', x s ≠ .throw .formatError s'

theorem RQuiet.ok {α : Type} (a : α) : RQuiet (.ok a) := by intro h; cases h
theorem RQuiet.ub {α : Type} : RQuiet (.ub : Res α) := by intro h; cases h
theorem RQuiet.bind {α β : Type} {x : Res α} {f : α → Res β} (hx : RQuiet x) (hf : ∀ a, RQuiet (f a)) : RQuiet (x >>= f) := by
  cases x with
  | ok a => exact hf a
  | throw e => intro h; exact hx (by cases h; rfl)
  | ub => intro h; cases h
theorem rd_quiet {α : Type} (l : List α) (i : Nat) : RQuiet (rd l i) := by
  unfold rd; split <;> (intro h; cases h)
theorem wr_quiet {α : Type} (l : List α) (i : Nat) (x : α) : RQuiet (wr l i x) := by
  unfold wr; split <;> (intro h; cases h)

theorem Quiet.pure {σ α : Type} (a : α) : Quiet (Pure.pure a : Cmd σ α) := by intro s s' h; cases h
theorem Quiet.get {σ : Type} : Quiet (Cmd.get : Cmd σ σ) := by intro s s' h; cases h
theorem Quiet.modify {σ : Type} (f : σ → σ) : Quiet (Cmd.modify f : Cmd σ Unit) := by intro s s' h; cases h
theorem Quiet.raise {σ α : Type} {e : Exc} (he : e ≠ .formatError) : Quiet (Cmd.raise e : Cmd σ α) := by
  intro s s' h; cases h; exact he rfl
theorem Quiet.lift {σ α : Type} {x : Res α} (h : RQuiet x) : Quiet (Cmd.lift x : Cmd σ α) := by
  intro s s' hh
  cases x with
  | ok a => cases hh
  | throw e => cases hh; exact h rfl
  | ub => cases hh
theorem Quiet.bind {σ α β : Type} {x : Cmd σ α} {f : α → Cmd σ β} (hx : Quiet x) (hf : ∀ a, Quiet (f a)) : Quiet (x >>= f) := by
  intro s s' h
  rw [Cmd.bind_def] at h
  cases hc : x s with
  | ok a t => rw [hc] at h; exact hf a t s' h
  | throw e t => rw [hc] at h; cases h; exact hx s s' hc
  | ub => rw [hc] at h; cases h
theorem Quiet.ite {σ α : Type} {p : Prop} [Decidable p] {x y : Cmd σ α} (hx : Quiet x) (hy : Quiet y) : Quiet (if p then x else y) := by
  split <;> assumption
theorem setO_quiet {B : Type} (f : Obj B → Obj B) : Quiet (setO f) := Quiet.modify _

section
variable {B : Type}

theorem free_quiet {α : Type} (M : Mem α) (p : Option Ptr) : RQuiet (M.free p) := by
  unfold Mem.free
  split
  · exact .ok _
  · split
    · exact .ok _
    · exact .ub
theorem read_quiet {α : Type} (M : Mem α) (p : Option Ptr) (k : Nat) : RQuiet (M.read p k) := by
  unfold Mem.read
  split
  · exact .ok _
  · split
    · exact .ub
    · split
      · split
        · exact .ok _
        · exact .ub
      · exact .ub
theorem write_quiet {α : Type} (M : Mem α) (p : Option Ptr) (xs : List α) : RQuiet (M.write p xs) := by
  unfold Mem.write
  split
  · exact .ok _
  · split
    · exact .ub
    · split
      · split
        · exact .ok _
        · exact .ub
      · exact .ub
theorem freeRows_quiet (ws : List Win) : ∀ h : Heap B, RQuiet (freeRows h ws) := by
  induction ws with
  | nil => intro h; exact .ok _
  | cons w ws ih =>
    intro h
    unfold freeRows
    split
    · exact (free_quiet _ _).bind fun js => (free_quiet _ _).bind fun as => (ih _).bind fun _ => .ok _
    · exact (ih _).bind fun _ => .ok _
theorem deallocate_quiet (b : Bool) : Quiet (deallocate b : BC B Unit) := by
  intro s s' h
  unfold deallocate at h
  dsimp only at h
  split at h
  · cases h
  · rename_i e he
    cases h
    split at he
    · split at he
      · split at he
        · cases he
        · rename_i e' he'; cases he; exact free_quiet _ _ he'
        · cases he
      · cases he
    · split at he
      · split at he
        · cases he
        · rename_i e' he'; cases he; exact freeRows_quiet _ _ he'
        · cases he
      · cases he
  · cases h
theorem allocateData_quiet : Quiet (allocateData : BC B Unit) := by
  intro s s' h
  unfold allocateData at h
  split at h
  · cases h
  · split at h <;> cases h
theorem allocateRows_quiet (n : Nat) : Quiet (allocateRows n : BC B Unit) := by
  intro s s' h
  unfold allocateRows at h
  split at h
  · split at h <;> cases h
  · cases h
theorem allocateIdx_quiet : Quiet (allocateIdx : BC B Unit) := by
  intro s s' h
  unfold allocateIdx at h
  split at h
  · split at h <;> cases h
  · cases h
theorem allocate_quiet (n m k : Nat) (a b : Bool) : Quiet (allocate n m k a b : BC B Unit) := by
  unfold allocate
  refine (setO_quiet _).bind fun _ => ?_
  have t : Quiet (do allocateIdx; setO fun o => { o with ready := .building } : BC B Unit) := allocateIdx_quiet.bind fun _ => setO_quiet _
  cases a <;> cases b
  · exact t
  · exact allocateData_quiet.bind fun _ => t
  · exact (allocateRows_quiet _).bind fun _ => t
  · exact (allocateRows_quiet _).bind fun _ => allocateData_quiet.bind fun _ => t
theorem implicitAllocate_quiet (n m : Nat) : Quiet (implicitAllocate n m : BC B Unit) := by
  unfold implicitAllocate
  refine Quiet.get.bind fun s => ?_
  refine Quiet.ite (Quiet.raise (by decide)) (Quiet.ite (Quiet.raise (by decide)) (Quiet.ite (Quiet.raise (by decide)) ?_))
  exact (allocate_quiet _ _ _ _ _).bind fun _ => setO_quiet _
theorem setSize_quiet (n m k : Nat) : Quiet (setSize n m k : BC B Unit) := by
  unfold setSize
  refine (deallocate_quiet _).bind fun _ => Quiet.get.bind fun s => ?_
  exact Quiet.ite (Quiet.ite (Quiet.raise (by decide)) (implicitAllocate_quiet _ _)) (allocate_quiet _ _ _ _ _)
theorem setBuildMode_quiet (bm : BuildMode) : Quiet (setBuildMode bm : BC B Unit) := by
  intro s s' h
  unfold setBuildMode at h
  split at h
  · cases h
  · split at h <;> cases h
theorem createbegin_quiet : Quiet (createbegin : BC B CIter) := by
  unfold createbegin
  refine (setO_quiet _).bind fun _ => Quiet.get.bind fun s => ?_
  refine Quiet.ite (Quiet.raise (by decide)) (Quiet.ite (Quiet.raise (by decide)) ?_)
  split
  · exact (setO_quiet _).bind fun _ => Quiet.pure _
  · exact Quiet.pure _
theorem row_quiet (i : Nat) : Quiet (Bcrs.row i : BC B Win) := by
  intro s s' h
  unfold Bcrs.row at h
  split at h
  · cases h
  · split at h <;> cases h
theorem setRow_quiet (i : Nat) (w : Win) : Quiet (setRow i w : BC B Unit) := by
  intro s s' h
  unfold setRow at h
  split at h
  · cases h
  · split at h <;> cases h
theorem place_quiet (c : CIter) (k : Nat) : Quiet (c.place k : BC B (Option Ptr)) := by
  intro s s' h
  unfold CIter.place at h
  dsimp only at h
  split at h
  · split at h
    · split at h
      · cases h
      · exact ((setRow_quiet _ _).bind fun _ => Quiet.pure _) _ _ h
    · exact ((setRow_quiet _ _).bind fun _ => Quiet.pure _) _ _ h
  · exact ((setRow_quiet _ _).bind fun _ => Quiet.pure _) _ _ h
theorem finish_quiet (c : CIter) (k : Nat) : Quiet (c.finish k : BC B Unit) := by
  intro s s' h
  unfold CIter.finish at h
  split at h
  · split at h
    · exact ((setO_quiet _).bind fun _ => allocateData_quiet.bind fun _ => setO_quiet _) _ _ h
    · cases h
  · cases h
theorem next_quiet (c : CIter) : Quiet (c.next : BC B CIter) := by
  unfold CIter.next
  refine Quiet.get.bind fun s => Quiet.ite (Quiet.raise (by decide)) ?_
  refine (place_quiet _ _).bind fun _ => (row_quiet _).bind fun _ => Quiet.get.bind fun _ => (Quiet.lift (write_quiet _ _ _)).bind fun _ => ?_
  exact (Quiet.modify _).bind fun _ => (finish_quiet _ _).bind fun _ => Quiet.pure _
theorem buildRows_quiet (todo : List (List Nat)) : ∀ c : CIter, Quiet (buildRows c todo : BC B Unit) := by
  induction todo with
  | nil => intro c; exact Quiet.pure _
  | cons t todo ih =>
    intro c
    unfold buildRows
    exact (next_quiet _).bind fun _ => ih _
theorem view_quiet (s : St B) : RQuiet (view s) := by
  have : ∀ ws, RQuiet (rowsView s.h ws) := by
    intro ws
    induction ws with
    | nil => exact .ok _
    | cons w ws ih =>
      unfold rowsView
      refine RQuiet.bind ?_ fun r => ih.bind fun rs => .ok _
      exact (read_quiet _ _ _).bind fun _ => (read_quiet _ _ _).bind fun _ => .ok _
  exact (this _).bind fun rs => .ok _
end

theorem foldlM_quiet {α β : Type} (f : β → α → Res β) (hf : ∀ b a, RQuiet (f b a)) (l : List α) : ∀ b, RQuiet (l.foldlM f b) := by
  induction l with
  | nil => intro b; exact .ok _
  | cons a l ih => intro b; rw [List.foldlM_cons]; exact (hf b a).bind fun b' => ih b'

theorem lowerBoundGo_quiet (j : List Nat) (v : Nat) : ∀ (n a : Nat), RQuiet (lowerBoundGo j v a n) := by
  intro n
  induction n using Nat.strongRecOn with
  | _ n ih =>
    intro a
    rw [lowerBoundGo]
    split
    · exact .ok _
    · dsimp only
      split
      · exact .ub
      · split
        · exact ih _ (by omega) _
        · exact ih _ (by omega) _

section
variable {K : Type} [Zero K] [Neg K] {r c : Nat}

omit [Zero K] [Neg K] in
theorem modify_quiet {B : Type} (rw_ : Row B) (i : Nat) (f : B → B) : RQuiet (rw_.modify i f) := by
  unfold Row.modify
  refine (lowerBoundGo_quiet _ _ _ _).bind fun lb => ?_
  split
  · intro h; cases h
  · refine (rd_quiet _ _).bind fun x => ?_
    split
    · intro h; cases h
    · exact (rd_quiet _ _).bind fun e => wr_quiet _ _ _

omit [Zero K] [Neg K] in
theorem rowsAdd_quiet (rows : List (List (Nat × K))) (i j : Nat) (v : K) : RQuiet (rowsAdd rows i j v) :=
  (rd_quiet _ _).bind fun _ => wr_quiet _ _ _

theorem readLoop_quiet (value : In → Option K × In) (st : Structure) (conj : K → K) : ∀ (k : Nat) (s : In) (rows : List (List (Nat × K))),
    RQuiet (readLoop value st conj k s rows) := by
  intro k
  induction k with
  | zero => intro s rows; exact .ok _
  | succ k ih =>
    intro s rows
    unfold readLoop
    dsimp only
    split
    · exact .ub
    · refine (rowsAdd_quiet _ _ _ _).bind fun rows => ?_
      split
      · exact ih _ _
      · refine RQuiet.bind ?_ fun rows => ih _ _
        unfold fixup
        split
        · exact .ok _
        all_goals exact rowsAdd_quiet _ _ _ _

theorem afterHeader_quiet (value : In → Option K × In) (conj : K → K) (h : Header) (N M E : Nat) (s : In) :
    Quiet (afterHeader r c value conj h N M E s) := by
  unfold afterHeader
  refine (setSize_quiet _ _ _).bind fun _ => (setBuildMode_quiet _).bind fun _ => Quiet.ite (Quiet.raise (by decide)) ?_
  unfold readSparseEntries
  refine Quiet.get.bind fun x => (Quiet.lift (readLoop_quiet _ _ _ _ _ _)).bind fun t => createbegin_quiet.bind fun it => ?_
  refine (buildRows_quiet _ _).bind fun _ => Quiet.get.bind fun x => (Quiet.lift (view_quiet _)).bind fun v => Quiet.lift ?_
  unfold setValues
  refine foldlM_quiet _ (fun A I => ?_) _ _
  refine RQuiet.bind ?_ fun row => .ok _
  exact foldlM_quiet _ (fun row x => modify_quiet _ _ _) _ _

/-- The part of the reader between the comments and the entries. -/
def readSizes (r c : Nat) (value : In → Option K × In) (conj : K → K) (h : Header) (s : In) :
    BC (Fin r → Fin c → K) (SpMat (Fin r → Fin c → K)) :=
  let f := lineFeed s
  if f.1 then Cmd.raise .formatError
  else do
    let n := getNat f.2
    let rows ← Cmd.lift (need n.1)
    let f := lineFeed n.2
    if f.1 then Cmd.raise .formatError
    else do
      let m := getNat f.2
      let cols ← Cmd.lift (need m.1)
      let f := lineFeed m.2
      if f.1 then Cmd.raise .formatError
      else do
        let e := getNat f.2
        let entries ← Cmd.lift (need e.1)
        afterHeader r c value conj h rows cols entries (ignoreLine e.2)

theorem readMatrix_eq (value : In → Option K × In) (conj : K → K) (s : In) :
    readMatrix r c value conj s = readSizes r c value conj (readHeader s).1 (skipComments (readHeader s).2) := by
  unfold readMatrix readSizes afterHeader
  rfl

omit [Zero K] [Neg K] in
theorem need_quiet (x : Option Nat) : RQuiet (need x) := by
  unfold need; split <;> (intro h; cases h)

omit [Zero K] [Neg K] in
theorem lift_need {σ : Type} (x : Option Nat) (s : σ) : (Cmd.lift (need x) : Cmd σ Nat) s = match x with | some n => .ok n s | none => .ub := by
  cases x <;> rfl

/-- A format error leaves the matrix untouched. -/
theorem readMatrix_format (value : In → Option K × In) (conj : K → K) (s : In) (x x' : St (Fin r → Fin c → K))
    (h : readMatrix r c value conj s x = .throw .formatError x') : x' = x := by
  rw [readMatrix_eq] at h
  unfold readSizes at h
  dsimp only at h
  split at h
  · cases h; rfl
  rw [Cmd.bind_def, lift_need] at h
  split at h
  case h_2 => rename_i h1; split at h1 <;> cases h1
  case h_3 => cases h
  rename_i n t ht
  split at ht
  case h_2 => cases ht
  cases ht
  split at h
  · cases h; rfl
  rw [Cmd.bind_def, lift_need] at h
  split at h
  case h_2 => rename_i h1; split at h1 <;> cases h1
  case h_3 => cases h
  rename_i n t ht
  split at ht
  case h_2 => cases ht
  cases ht
  split at h
  · cases h; rfl
  rw [Cmd.bind_def, lift_need] at h
  split at h
  case h_2 => rename_i h1; split at h1 <;> cases h1
  case h_3 => cases h
  exact absurd h (afterHeader_quiet _ _ _ _ _ _ _ _ _)

/-- The size line behind any preamble. -/
theorem readMatrix_preamble (value : In → Option K × In) (conj : K → K) (P : Preamble) (hP : P.Ok) (N M E : Nat) (body : List Char) :
    readMatrix r c value conj (In.ofText (P.text ++ (sizeLine N M E ++ body))) =
      afterHeader r c value conj P.said N M E (gs (P.text ++ (sizeLine N M E ++ body)) body) := by
  have hsz : sizeLine N M E ++ body = dec N ++ (' ' :: (dec M ++ (' ' :: (dec E ++ '\n' :: body)))) := by simp [sizeLine]
  rw [hsz]
  set t := P.text ++ (dec N ++ (' ' :: (dec M ++ (' ' :: (dec E ++ '\n' :: body))))) with ht
  obtain ⟨d, ds, hd, hdig⟩ := dec_cons N
  obtain ⟨h1, h2, -⟩ := readHeader_preamble P hP d (ds ++ (' ' :: (dec M ++ (' ' :: (dec E ++ '\n' :: body))))) hdig
  rw [← List.cons_append, ← hd, ← ht] at h1 h2
  have l1 := lineFeed_dec t N (' ' :: (dec M ++ (' ' :: (dec E ++ '\n' :: body))))
  have g1 := getNat_dec t [] N ' ' (dec M ++ (' ' :: (dec E ++ '\n' :: body))) (by simp) (by decide)
  have l2 := lineFeed_blank_dec t M (' ' :: (dec E ++ '\n' :: body))
  have g2 := getNat_dec t [] M ' ' (dec E ++ '\n' :: body) (by simp) (by decide)
  have l3 := lineFeed_blank_dec t E ('\n' :: body)
  have g3 := getNat_dec t [] E '\n' body (by simp) (by decide)
  have ig := ignoreLine_text t [] body (by simp)
  simp only [List.nil_append] at g1 g2 g3 ig
  rw [readMatrix_eq]
  unfold readSizes
  simp only [h1, h2, l1, g1, l2, g2, l3, g3, ig]
  funext s
  simp [Cmd.bind_def, Cmd.lift, need]

/-- The line of sizes ends after the first number. -/
theorem readMatrix_short1 (value : In → Option K × In) (conj : K → K) (P : Preamble) (hP : P.Ok) (N k : Nat) (body : List Char)
    (x : St (Fin r → Fin c → K)) :
    readMatrix r c value conj (In.ofText (P.text ++ (dec N ++ (List.replicate k ' ' ++ '\n' :: body)))) x = .throw .formatError x := by
  set t := P.text ++ (dec N ++ (List.replicate k ' ' ++ '\n' :: body)) with ht
  obtain ⟨d, ds, hd, hdig⟩ := dec_cons N
  obtain ⟨h1, h2, -⟩ := readHeader_preamble P hP d (ds ++ (List.replicate k ' ' ++ '\n' :: body)) hdig
  rw [← List.cons_append, ← hd, ← ht] at h1 h2
  have l1 := lineFeed_dec t N (List.replicate k ' ' ++ '\n' :: body)
  have g1 : getNat (gs t (dec N ++ (List.replicate k ' ' ++ '\n' :: body))) = (some N, gs t (List.replicate k ' ' ++ '\n' :: body)) := by
    cases k with
    | zero => simpa using getNat_dec t [] N '\n' body (by simp) (by decide)
    | succ k => simpa [List.replicate_succ] using getNat_dec t [] N ' ' (List.replicate k ' ' ++ '\n' :: body) (by simp) (by decide)
  have l2 := lineFeed_blanks t '\n' body k (by decide)
  rw [if_pos rfl] at l2
  rw [readMatrix_eq]
  unfold readSizes
  simp only [h1, h2, l1, g1, l2]
  simp [Cmd.bind_def, Cmd.lift, need]

/-- The line of sizes ends after the second number. -/
theorem readMatrix_short2 (value : In → Option K × In) (conj : K → K) (P : Preamble) (hP : P.Ok) (N M k : Nat) (body : List Char)
    (x : St (Fin r → Fin c → K)) :
    readMatrix r c value conj (In.ofText (P.text ++ (dec N ++ (' ' :: (dec M ++ (List.replicate k ' ' ++ '\n' :: body)))))) x = .throw .formatError x := by
  set t := P.text ++ (dec N ++ (' ' :: (dec M ++ (List.replicate k ' ' ++ '\n' :: body)))) with ht
  obtain ⟨d, ds, hd, hdig⟩ := dec_cons N
  obtain ⟨h1, h2, -⟩ := readHeader_preamble P hP d (ds ++ (' ' :: (dec M ++ (List.replicate k ' ' ++ '\n' :: body)))) hdig
  rw [← List.cons_append, ← hd, ← ht] at h1 h2
  have l1 := lineFeed_dec t N (' ' :: (dec M ++ (List.replicate k ' ' ++ '\n' :: body)))
  have g1 := getNat_dec t [] N ' ' (dec M ++ (List.replicate k ' ' ++ '\n' :: body)) (by simp) (by decide)
  have l2 := lineFeed_blank_dec t M (List.replicate k ' ' ++ '\n' :: body)
  have g2 : getNat (gs t (dec M ++ (List.replicate k ' ' ++ '\n' :: body))) = (some M, gs t (List.replicate k ' ' ++ '\n' :: body)) := by
    cases k with
    | zero => simpa using getNat_dec t [] M '\n' body (by simp) (by decide)
    | succ k => simpa [List.replicate_succ] using getNat_dec t [] M ' ' (List.replicate k ' ' ++ '\n' :: body) (by simp) (by decide)
  have l3 := lineFeed_blanks t '\n' body k (by decide)
  rw [if_pos rfl] at l3
  simp only [List.nil_append] at g1
  rw [readMatrix_eq]
  unfold readSizes
  simp only [h1, h2, l1, g1, l2, g2, l3]
  simp [Cmd.bind_def, Cmd.lift, need]

/-- Files in array format: refused, after the matrix has been resized. -/
theorem afterHeader_array (value : In → Option K × In) (conj : K → K) (hd : Header) (hty : hd.type = .array) (N M E : Nat) (s : In)
    (h : Heap (Fin r → Fin c → K)) (bm : BuildMode) (hbm : bm ≠ .implicit) :
    ∃ s', afterHeader r c value conj hd N M E s ⟨h, empty bm⟩ = .throw .notImplemented s' ∧ s'.o.n = N / r := by
  obtain ⟨s1, s2, e1, e2, e3⟩ := sized h bm hbm (N / r) (M / c) (calculateNNZ r c N M E hd.structure_).2.2
  refine ⟨s2, ?_, e3⟩
  unfold afterHeader
  simp only [Cmd.bind_def, e1, e2, hty, if_true, Cmd.raise_apply]

/-! ### Indices out of range -/

/-- An entry whose row, or for structured matrices whose column, does not exist. -/
theorem readLoop_bad {value : In → Option K × In} {print : K → List Char} (hv : Reads value print) (st : Structure) (conj : K → K) (N : Nat)
    (hN : N < 2 ^ 64) (all : List Char) (l : RawLine K) (hc : ∀ x ∈ l.comments, '\n' ∉ x)
    (hbad : l.row = 0 ∨ N < l.row ∨ st ≠ .general ∧ l.row ≠ l.col ∧ (l.col = 0 ∨ N < l.col))
    (k : Nat) (pre tail : List Char) (hpre : pre = [] ∨ pre = ['\n']) (rows : List (List (Nat × K))) (hl : rows.length = N) :
    readLoop value st conj (k + 1) (gs all (pre ++ (l.text print ++ tail))) rows = .ub := by
  have htext : l.text print ++ tail =
      l.comments.flatMap commentText ++ (dec l.row ++ ' ' :: (dec l.col ++ ' ' :: (print l.v ++ '\n' :: tail))) := by
    simp [RawLine.text]
  obtain ⟨d, ds, hd, hdig⟩ := dec_cons l.row
  have hsk : skipComments (gs all (pre ++ (l.text print ++ tail))) =
      gs all (dec l.row ++ ' ' :: (dec l.col ++ ' ' :: (print l.v ++ '\n' :: tail))) := by
    rw [htext, hd]
    rcases hpre with rfl | rfl
    · exact skipComments_start all _ d _ (digit_ne hdig (by decide)) (digit_ne hdig (by decide)) (digit_ne hdig (by decide)) hc
    · exact skipComments_newline all _ d _ (digit_ne hdig (by decide)) hc
  have g1 := getNat_dec all [] l.row ' ' (dec l.col ++ ' ' :: (print l.v ++ '\n' :: tail)) (by simp) (by decide)
  have g2 := getNat_dec all [' '] l.col ' ' (print l.v ++ '\n' :: tail) (by decide) (by decide)
  have g3 := hv all l.v tail
  simp only [List.nil_append, List.cons_append] at g1 g2 g3
  have hout : ∀ n, n = 0 ∨ N < n → N ≤ pred64 n := by
    intro n hn
    unfold pred64
    split <;> omega
  have hub : ∀ (rows : List (List (Nat × K))) i j v, rows.length ≤ i → rowsAdd rows i j v = .ub := by
    intro rows i j v h
    unfold rowsAdd
    rw [show rd rows i = .ub by simp [rd, h]]
    rfl
  unfold readLoop
  simp only [hsk, g1, g2, g3, Option.getD_some]
  by_cases hrow : l.row = 0 ∨ N < l.row
  · rw [hub rows _ _ _ (by rw [hl]; exact hout _ hrow)]
    rfl
  · obtain ⟨hst, hne, hcol⟩ : st ≠ .general ∧ l.row ≠ l.col ∧ (l.col = 0 ∨ N < l.col) := by
      rcases hbad with h | h | h
      · exact absurd (.inl h) hrow
      · exact absurd (.inr h) hrow
      · exact h
    have hr0 : l.row ≠ 0 ∧ l.row ≤ N := by omega
    have hp : pred64 l.row = l.row - 1 := by simp [pred64, hr0.1]
    have hpi : pred64 l.row < rows.length := by omega
    have hadd : rowsAdd rows (pred64 l.row) (pred64 l.col) l.v =
        .ok (rows.set (pred64 l.row) (setAdd (pred64 l.col) l.v rows[pred64 l.row])) := by
      unfold rowsAdd
      rw [show rd rows (pred64 l.row) = .ok rows[pred64 l.row] by simp [rd, hpi], Res.ok_bind]
      simp [wr, hpi]
    have hd' : pred64 l.row ≠ pred64 l.col := by
      have := hout _ hcol
      omega
    rw [hadd, Res.ok_bind, if_neg hd']
    have : fixup st conj (pred64 l.row) (pred64 l.col) l.v (rows.set (pred64 l.row) (setAdd (pred64 l.col) l.v rows[pred64 l.row])) = .ub := by
      unfold fixup
      cases st with
      | general => exact absurd rfl hst
      | symmetric => exact hub _ _ _ _ (by rw [List.length_set, hl]; exact hout _ hcol)
      | skewSymmetric => exact hub _ _ _ _ (by rw [List.length_set, hl]; exact hout _ hcol)
      | hermitian => exact hub _ _ _ _ (by rw [List.length_set, hl]; exact hout _ hcol)
    rw [this]
    rfl

/-- What happens after good lines decides. -/
theorem readLoop_prefix {value : In → Option K × In} {print : K → List Char} (hv : Reads value print) (st : Structure) (conj : K → K) (N : Nat)
    (all tl : List Char) (d : Nat)
    (hub : ∀ (pre : List Char) (rows : List (List (Nat × K))), (pre = [] ∨ pre = ['\n']) → rows.length = N →
      readLoop value st conj d (gs all (pre ++ tl)) rows = .ub)
    (ls : List (Line K)) (pre : List Char) (rows : List (List (Nat × K))) (L : List (Nat × Nat × K))
    (hpre : pre = [] ∨ pre = ['\n']) (R : RowsOK rows N L) (hc : ∀ l ∈ ls, ∀ x ∈ l.comments, '\n' ∉ x)
    (hN : ∀ t ∈ allEntries st conj ls, t.1 < N) :
    readLoop value st conj (ls.length + d) (gs all (pre ++ (ls.flatMap (Line.text print) ++ tl))) rows = .ub := by
  obtain ⟨s', rows', e, R', hs⟩ := readLoop_tail hv st conj N all tl ls pre rows L hpre R hc hN
  rw [readLoop_add, e, Res.ok_bind]
  rcases hs with rfl | rfl
  · exact hub [] rows' (.inl rfl) R'.len
  · exact hub ['\n'] rows' (.inr rfl) R'.len

end

end MM
end Istl
