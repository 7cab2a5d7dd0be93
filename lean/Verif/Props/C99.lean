import Verif.Lemmas.Iter2

/-!
# C99: loops with iterators over the rows and the entries of a matrix

`Pass W dr dc x f w s r`: the double loop `for (i = A.begin(); i != A.end(); ++i) for (j = i->begin(); j != i->end(); ++j)` over
the matrix `A_x` (either loop may run from `beforeEnd()` down to `beforeBegin()`) has the outcome `r`. The body calls
`f(i.index(), j.index(), *j, s)` for a state `s` of its own and may overwrite `*j`.
-/

namespace Istl
namespace Iter
open Bcrs BcrsWorld
variable {B τ : Type}

/-- After every program over any number of matrices, the loop ends, in either direction, without undefined behaviour (also for
no rows and for empty rows, where `beforeEnd()` has wrapped around), and in exactly one way: the body is called once for each
stored entry, in the order of the loop, with the right indices and value, and the writes through `*j` are the assignments
`A[i][c] = y`. -/
theorem C99_pass (W : Nat) (h : Heap B) (z : B) (hd : h.dflt = z) (hv : h.vini = z) (ops : List (Op B))
    (hok : AllValid z [] ops) (x : Nat) (v : Val B) (hx : (run z [] ops).get x = some v) (hW : Fits W v) (dr dc : Dir)
    (f : Nat → Nat → B → τ → Option B × τ) (s : τ) :
    ∃ w w', ops.foldlM step ⟨h, []⟩ = .ok w ∧ (walk x f (visits dr dc v.rows) s).1.foldlM step w = .ok w' ∧
      AllValid z [] (ops ++ (walk x f (visits dr dc v.rows) s).1) ∧
      ∀ r, Pass W dr dc x f w s r ↔ r = .ok (w', (walk x f (visits dr dc v.rows) s).2) := by
  obtain ⟨w, e, I⟩ := run_inv ops (inv_start h z hd hv) hok
  obtain ⟨w', u, G, hr⟩ := pass dr dc f I (get_iff.mp hx) hW s
  exact ⟨w, w', e, G.run, (allValid_append z [] ops _).2 ⟨hok, G.ok⟩, hr⟩

/-- A loop that only reads folds over the stored entries and changes nothing. -/
theorem C99_read (W : Nat) (h : Heap B) (z : B) (hd : h.dflt = z) (hv : h.vini = z) (ops : List (Op B))
    (hok : AllValid z [] ops) (x : Nat) (v : Val B) (hx : (run z [] ops).get x = some v) (hW : Fits W v) (dr dc : Dir)
    (g : Nat → Nat → B → τ → τ) (s : τ) :
    ∃ w, ops.foldlM step ⟨h, []⟩ = .ok w ∧
      ∀ r, Pass W dr dc x (fun i c b s => ((none : Option B), g i c b s)) w s r ↔
        r = .ok (w, (visits dr dc v.rows).foldl (fun s e => g e.1 e.2.1 e.2.2 s) s) := by
  obtain ⟨w, w', e, e', -, hr⟩ := C99_pass W h z hd hv ops hok x v hx hW dr dc
    (fun i c b s => ((none : Option B), g i c b s)) s
  rw [walk_read] at e' hr
  simp only [List.foldlM_nil] at e'
  cases e'
  exact ⟨w, e, hr⟩

/-- The order of the visits: upwards by row and then column, strictly; downwards in both loops the reverse of that; and they
are exactly the stored entries. -/
theorem C99_order (W : Nat) (h : Heap B) (z : B) (hd : h.dflt = z) (hv : h.vini = z) (ops : List (Op B))
    (hok : AllValid z [] ops) (x : Nat) (v : Val B) (hx : (run z [] ops).get x = some v) (_hW : Fits W v) :
    ((visits .up .up v.rows).Pairwise fun a b => a.1 < b.1 ∨ a.1 = b.1 ∧ a.2.1 < b.2.1) ∧
    visits .down .down v.rows = (visits .up .up v.rows).reverse ∧
    ∀ dr dc i c b, (i, c, b) ∈ visits dr dc v.rows ↔ ∃ row, v.rows[i]? = some row ∧ (c, b) ∈ row := by
  obtain ⟨w, e, I⟩ := run_inv ops (inv_start h z hd hv) hok
  obtain ⟨o, ho, R⟩ := I.rep x v (get_iff.mp hx)
  refine ⟨?_, ?_, fun dr dc i c b => mem_visits dr dc v.rows i c b⟩
  · unfold visits
    rw [List.pairwise_flatMap]
    refine ⟨fun p hp => ?_, ?_⟩
    · rw [List.pairwise_map]
      have hasc := R.asc p.1 (by
        have := List.mem_zipIdx_iff_getElem?.mp (show p ∈ v.rows.zipIdx from hp)
        exact List.mem_of_getElem? this)
      have : p.1.Pairwise fun a b => a.1 < b.1 := by
        have := hasc
        unfold Row.Asc at this
        rwa [List.pairwise_map] at this
      exact this.imp fun h => Or.inr ⟨rfl, h⟩
    · have hz : (Dir.up.order v.rows.zipIdx).Pairwise fun a b => a.2 < b.2 := by
        simp only [Dir.order]
        rw [List.pairwise_iff_getElem]
        intro a b ha hb hab
        simp only [List.getElem_zipIdx]
        omega
      refine hz.imp fun {a b} h => ?_
      intro y hy t ht
      obtain ⟨e1, -, rfl⟩ := List.mem_map.mp hy
      obtain ⟨e2, -, rfl⟩ := List.mem_map.mp ht
      exact Or.inl h
  · unfold visits
    simp only [Dir.order]
    rw [List.reverse_flatMap]
    congr 1
    funext p
    simp [List.map_reverse]

/-- A loop that overwrites `*j` with `g(i.index(), j.index(), *j)`: afterwards exactly these entries have their new values;
the sizes, the pattern and every other matrix are as before. The direction of the loops does not matter. -/
theorem C99_write (W : Nat) (h : Heap B) (z : B) (hd : h.dflt = z) (hv : h.vini = z) (ops : List (Op B))
    (hok : AllValid z [] ops) (x : Nat) (v : Val B) (hx : (run z [] ops).get x = some v) (hW : Fits W v) (dr dc : Dir)
    (g : Nat → Nat → B → B) :
    ∃ w w', ops.foldlM step ⟨h, []⟩ = .ok w ∧
      (∀ r, Pass W dr dc x (fun i c b (u : Unit) => (some (g i c b), u)) w () r ↔ r = .ok (w', ())) ∧
      see w' x = .ok (v.n, v.m, mapEntries g v.rows) ∧
      ∀ k, k ≠ x → (∃ u, (run z [] ops).get k = some u) → ∃ seen, see w k = .ok seen ∧ see w' k = .ok seen := by
  obtain ⟨w0, e0, I0⟩ := run_inv ops (inv_start h z hd hv) hok
  obtain ⟨o, ho, R⟩ := I0.rep x v (get_iff.mp hx)
  obtain ⟨w, w', e, e', hall, hr⟩ := C99_pass W h z hd hv ops hok x v hx hW dr dc
    (fun i c b (u : Unit) => (some (g i c b), u)) ()
  rw [walk_write] at e' hall hr
  rw [e0] at e
  cases e
  obtain ⟨w2, e2, I2⟩ := run_inv (z := z) _ I0 ((allValid_append z [] ops _).1 hall).2
  rw [e'] at e2
  cases e2
  refine ⟨w0, w', e0, hr, ?_, ?_⟩
  · have hw := run_writes z x ((visits dr dc v.rows).map fun e => (e.1, e.2.1, g e.1 e.2.1 e.2.2)) _ v (get_iff.mp hx)
    rw [List.map_map] at hw
    have := I2.see (get_iff.mpr hw)
    rw [this]
    simp only
    rw [writes_rows dr dc g v.rows R.asc]
  · rintro k hk ⟨u, hu⟩
    have hother := run_other z ((visits dr dc v.rows).map fun e => (.modify x e.1 e.2.1 fun _ => g e.1 e.2.1 e.2.2 : Op B))
      (run z [] ops) ((allValid_append z [] ops _).1 hall).2 hu (by
        intro op hop
        obtain ⟨e, -, rfl⟩ := List.mem_map.mp hop
        simp only [target, ne_eq, Option.some.injEq]
        exact fun h => hk h.symm)
    obtain ⟨u', q1, q2, q3, q4⟩ := hother
    exact ⟨(u.n, u.m, u.rows), I0.see hu, by rw [I2.see q1, q2, q3, q4]⟩

/-- `A[i].find(c)`: `end()` exactly if the entry is not there; otherwise an iterator to it. From there `++` up to `end()` visits
the columns from `c` on and `--` down to `beforeBegin()` those from `c` down. -/
theorem C99_find (W : Nat) (h : Heap B) (z : B) (hd : h.dflt = z) (hv : h.vini = z) (ops : List (Op B))
    (hok : AllValid z [] ops) (x : Nat) (v : Val B) (hx : (run z [] ops).get x = some v) (hW : Fits W v) (i : Nat) (row : Row B)
    (hrow : v.rows[i]? = some row) (c : Nat) :
    ∃ w o win it, ops.foldlM step ⟨h, []⟩ = .ok w ∧ obj w x = .ok o ∧ RowIt.deref ⟨o.rows, i⟩ = .ok win ∧
      colFind w.h win c = .ok it ∧ (it.equals (colEnd win) = true ↔ ¬ row.Has c) ∧
      (∀ b, (c, b) ∈ row → it.index w.h = .ok c ∧ it.deref w.h = .ok b) ∧
      (row.Has c → ∀ (g : Nat → Nat → B → τ → τ) (s : τ) (r : Res (World B × τ)),
        RowPassFrom W .up (fun i c b s => ((none : Option B), g i c b s)) ⟨o.rows, i⟩ it (w, s) r ↔
          r = .ok (w, (row.filter (c ≤ ·.1)).foldl (fun s e => g i e.1 e.2 s) s)) ∧
      (row.Has c → ∀ (g : Nat → Nat → B → τ → τ) (s : τ) (r : Res (World B × τ)),
        RowPassFrom W .down (fun i c b s => ((none : Option B), g i c b s)) ⟨o.rows, i⟩ it (w, s) r ↔
          r = .ok (w, ((row.filter (·.1 ≤ c)).reverse).foldl (fun s e => g i e.1 e.2 s) s)) := by
  obtain ⟨w, e, I⟩ := run_inv ops (inv_start h z hd hv) hok
  have hxv := get_iff.mp hx
  obtain ⟨o, ho, R⟩ := I.rep x v hxv
  obtain ⟨ws, hws, hl, hw⟩ := R.wins
  obtain ⟨h2, e2⟩ := List.getElem?_eq_some_iff.mp hrow
  have h1 : i < ws.length := by omega
  have hwi : ws[i]? = some ws[i] := List.getElem?_eq_getElem h1
  have hri : RowIt.deref ⟨o.rows, i⟩ = .ok ws[i] := by
    have hr0 : o.rows = some ws := by rw [hws.2, if_neg (by have := hws.1; omega)]
    simp only [RowIt.deref, hr0, hwi]
  obtain ⟨s1, s2, -⟩ := hw i h1 h2
  rw [e2] at s1 s2
  have hasc := R.asc row (List.mem_of_getElem? hrow)
  have hrl : row.length < W := hW.2 row (List.mem_of_getElem? hrow)
  have G0 : Good z x (run z [] ops) w [] w v := ⟨rfl, I, trivial, rfl, hxv⟩
  obtain ⟨f1, f2, f3, f4⟩ := C01_find_exact row hasc c
  -- `colFind` is `Row.find`
  have hfind : colFind w.h ws[i] c = (row.find c >>= fun q => .ok ⟨ws[i].p, ws[i].j, q.getD row.length⟩) := by
    unfold colFind Row.find
    rw [s2, s1, Res.ok_bind]
    dsimp only
    cases hlb : lowerBound (row.map Prod.fst) row.length c with
    | ok lb =>
      simp only [Res.ok_bind]
      by_cases hl : lb = row.length
      · rw [if_pos hl, if_pos hl]; simp [colEnd, s1]
      · rw [if_neg hl, if_neg hl]
        cases hrd : rd (row.map Prod.fst) lb with
        | ok a =>
          simp only [Res.ok_bind]
          by_cases ha : a = c
          · rw [if_pos ha, if_pos ha]; rfl
          · rw [if_neg ha, if_neg ha]; simp [colEnd, s1]
        | throw e => rfl
        | ub => rfl
    | throw e => rfl
    | ub => rfl
  -- reading from a given position on
  have hfrom : ∀ (d : Dir) (k0 : Nat), k0 ≤ row.length → ∀ (g : Nat → Nat → B → τ → τ) (s : τ) (r : Res (World B × τ)),
      RowPassFrom W d (fun i c b s => ((none : Option B), g i c b s)) ⟨o.rows, i⟩ ⟨ws[i].p, ws[i].j, pos W row.length d k0⟩ (w, s) r ↔
        r = .ok (w, ((d.order row).drop k0).foldl (fun s e => g i e.1 e.2 s) s) := by
    intro d k0 hk g s r
    obtain ⟨w', row', G, -, hr⟩ := rowPassFrom (W := W) d (fun i c b s => ((none : Option B), g i c b s)) G0 ho
      (ri := ⟨o.rows, i⟩) hrow hrl hws hwi hri hk s
    rw [walk_read] at G hr
    have := G.run
    simp only [List.append_nil, List.foldlM_nil] at this
    cases this
    rw [hr r, List.foldl_map]
  cases hf : row.find c with
  | ub => exact absurd hf f3
  | throw e => exact absurd hf (f4 e)
  | ok q =>
    cases q with
    | none =>
      have hno : ¬ row.Has c := f2.1 hf
      refine ⟨w, o, ws[i], ⟨ws[i].p, ws[i].j, row.length⟩, e, obj_ok ho, hri, by rw [hfind, hf]; rfl, ?_, ?_, ?_, ?_⟩
      · simp [ColIt.equals, colEnd, s1, hno]
      · exact fun b hb => absurd ⟨b, hb⟩ hno
      · exact fun hh => absurd hh hno
      · exact fun hh => absurd hh hno
    | some k =>
      obtain ⟨b, hb⟩ := (f1 k).1 hf
      have hHas : row.Has c := ⟨b, List.mem_of_getElem? hb⟩
      obtain ⟨hk, hke⟩ := List.getElem?_eq_some_iff.mp hb
      obtain ⟨a1, a2, -⟩ := G0.entry ho (i := i) (k := k) (c := c) (b := b) hrow hb hws hwi
      have hlt : ∀ s t (hs : s < row.length) (ht : t < row.length), s < t → row[s].1 < row[t].1 := by
        intro s t hs ht hst
        have := List.pairwise_iff_getElem.mp hasc s t (by simpa using hs) (by simpa using ht) hst
        simpa using this
      refine ⟨w, o, ws[i], ⟨ws[i].p, ws[i].j, k⟩, e, obj_ok ho, hri, by rw [hfind, hf]; rfl, ?_, ?_, ?_, ?_⟩
      · simp only [ColIt.equals, colEnd, s1, beq_iff_eq]
        exact ⟨fun h => absurd h (by omega), fun h => absurd hHas h⟩
      · intro b' hb'
        have hnd : (row.map Prod.fst).Nodup := hasc.imp fun h => Nat.ne_of_lt h
        have := List.inj_on_of_nodup_map hnd hb' (List.mem_of_getElem? hb) rfl
        rw [Prod.mk.injEq] at this
        rw [this.2]
        exact ⟨a1, a2⟩
      · intro _ g s r
        have hfl : row.filter (c ≤ ·.1) = row.drop k := by
          conv_lhs => rw [← List.take_append_drop k row]
          rw [List.filter_append, List.filter_eq_nil_iff.mpr, List.filter_eq_self.mpr, List.nil_append]
          · intro a ha
            obtain ⟨t, ht, rfl⟩ := List.getElem_of_mem ha
            simp only [List.length_drop] at ht
            simp only [List.getElem_drop, decide_eq_true_eq]
            rcases Nat.eq_zero_or_pos t with h | h
            · subst h
              simp [hke]
            · have := hlt k (k + t) hk (by omega) (by omega)
              rw [hke] at this
              exact Nat.le_of_lt this
          · intro a ha
            obtain ⟨t, ht, rfl⟩ := List.getElem_of_mem ha
            simp only [List.length_take] at ht
            have := hlt t k (by omega) hk (by omega)
            rw [hke] at this
            simpa using this
        rw [hfl]
        exact hfrom .up k (by omega) g s r
      · intro _ g s r
        have hfl : row.filter (·.1 ≤ c) = row.take (k + 1) := by
          conv_lhs => rw [← List.take_append_drop (k + 1) row]
          rw [List.filter_append, List.filter_eq_self.mpr, List.filter_eq_nil_iff.mpr, List.append_nil]
          · intro a ha
            obtain ⟨t, ht, rfl⟩ := List.getElem_of_mem ha
            simp only [List.length_drop] at ht
            have := hlt k (k + 1 + t) hk (by omega) (by omega)
            rw [hke] at this
            simpa using this
          · intro a ha
            obtain ⟨t, ht, rfl⟩ := List.getElem_of_mem ha
            simp only [List.length_take] at ht
            simp only [List.getElem_take, decide_eq_true_eq]
            rcases Nat.lt_or_ge t k with h | h
            · have := hlt t k (by omega) hk h
              rw [hke] at this
              exact Nat.le_of_lt this
            · have : t = k := by omega
              subst this
              rw [hke]
        have hd := hfrom .down (row.length - 1 - k) (by omega) g s r
        have hpos : pos W row.length .down (row.length - 1 - k) = k := by
          simp only [pos]
          rw [if_pos (by omega)]
          omega
        rw [hpos] at hd
        rw [hd, hfl]
        simp only [Dir.order]
        rw [List.drop_reverse, show row.length - (row.length - 1 - k) = k + 1 by omega]

/-- Row iterators are integers: `begin`, `end`, `beforeEnd` and `beforeBegin` are `0`, `N`, `N-1`, `-1`; `++`, `--`, `+=`,
`[]`, `==` and `-` are those of the integers, as long as distances fit into `ptrdiff_t`. -/
theorem C99_positions (W : Nat) (o : Obj B) (hW : o.n < W) :
    rowBegin o = rowAt W o 0 ∧ rowEnd o = rowAt W o o.n ∧ rowBeforeEnd W o = rowAt W o ((o.n : Int) - 1) ∧
    rowBeforeBegin W o = rowAt W o (-1) ∧
    ∀ q : Int, (rowAt W o q).increment W = rowAt W o (q + 1) ∧ (rowAt W o q).decrement W = rowAt W o (q - 1) ∧
      (∀ d, (rowAt W o q).advance W d = rowAt W o (q + d)) ∧
      (∀ d, (rowAt W o q).elementAt W d = (rowAt W o (q + d)).deref) ∧
      (∀ q', |q' - q| < W → ((rowAt W o q).equals (rowAt W o q') = true ↔ q = q')) ∧
      (∀ q', -(W : Int) ≤ 2 * (q' - q) → 2 * (q' - q) < W → (rowAt W o q).distanceTo W (rowAt W o q') = q' - q) ∧
      (0 ≤ q → q ≤ o.n → ((rowAt W o q).index : Int) = q) := by
  have hW0 : 0 < W := by omega
  have hdec : ∀ k : Nat, ((dec W k : Nat) : Int) = ((k : Int) - 1) % (W : Int) := by
    intro k
    unfold dec
    rw [Int.natCast_emod, Int.natCast_add, Nat.cast_sub (by omega : 1 ≤ W)]
    rw [show (k : Int) + ((W : Int) - (1 : Nat)) = (k : Int) - 1 + W by push_cast; omega, Int.add_emod_right]
  refine ⟨?_, ?_, ?_, ?_, fun q => ⟨?_, ?_, fun d => ?_, fun d => ?_, fun q' hq => ?_, fun q' h1 h2 => ?_, fun h1 h2 => ?_⟩⟩
  · exact (rowAt_eq hW0 (by simp)).symm
  · exact (rowAt_eq hW0 (Int.emod_eq_of_lt (by omega) (by omega)).symm).symm
  · exact (rowAt_eq hW0 (hdec o.n)).symm
  · refine (rowAt_eq hW0 ?_).symm
    rw [← Int.add_emod_right, Int.emod_eq_of_lt (by omega) (by omega)]
    omega
  · refine (rowAt_eq hW0 ?_).symm
    simp only [rowAt, inc]
    rw [Int.natCast_emod, Int.natCast_add, toNat_emod hW0]
    simp
  · refine (rowAt_eq hW0 ?_).symm
    simp only [rowAt]
    rw [hdec, toNat_emod hW0]
    simp
  · refine (rowAt_eq hW0 ?_).symm
    simp only [rowAt, adv]
    rw [toNat_emod hW0, toNat_emod hW0]
    simp
  · have : (rowAt W o q).elementAt W d = RowIt.deref ((rowAt W o q).advance W d) := rfl
    rw [this]
    congr 1
    refine (rowAt_eq hW0 ?_).symm
    simp only [rowAt, adv]
    rw [toNat_emod hW0, toNat_emod hW0]
    simp
  · simp only [RowIt.equals, rowAt, beq_iff_eq]
    constructor
    · intro h
      have h' : q % (W : Int) = q' % (W : Int) := by
        rw [← toNat_emod hW0 q, ← toNat_emod hW0 q', h]
      have hdvd : (W : Int) ∣ q' - q := Int.ModEq.dvd h'
      have := Int.eq_zero_of_abs_lt_dvd hdvd hq
      omega
    · rintro rfl; rfl
  · simp only [RowIt.distanceTo]
    refine signed_eq hW0 ?_ h1 h2
    have hlt : (rowAt W o q).i < W := by
      have := toNat_emod hW0 q
      have h3 := Int.emod_lt_of_pos q (show (0 : Int) < W by omega)
      simp only [rowAt]
      omega
    rw [Int.natCast_emod, Int.natCast_add, Nat.cast_sub (by omega)]
    simp only [rowAt]
    rw [toNat_emod hW0, toNat_emod hW0]
    rw [show q' % (W : Int) + ((W : Int) - q % (W : Int)) = q' % (W : Int) - q % (W : Int) + W by ring, Int.add_emod_right,
      ← Int.sub_emod]
  · simp only [rowAt, RowIt.index]
    rw [toNat_emod hW0, Int.emod_eq_of_lt h1 (by omega)]

/-! ### Non-vacuity and limits -/

private def demoHeap : Heap Int := { js := [], as := [], junk := 9, dflt := 0, vini := 0 }

/-- A matrix with an empty row, values written, copied. -/
private def demo : List (Op Int) :=
  [.rowWise 3 4 4 .rowWise [[0, 3], [], [1, 2]], .copy 0, .modify 1 0 3 (fun _ => 5), .modify 1 2 1 (fun _ => 7)]

deriving instance DecidableEq for Val

private theorem demo_first : BcrsWorld.apply (0 : Int) [] (.rowWise 3 4 4 .rowWise [[0, 3], [], [1, 2]]) =
    [some ⟨3, 4, [[(0, 0), (3, 0)], [], [(1, 0), (2, 0)]], false, false⟩] := by
  have h1 : ([0, 3] : List Nat).toFinset.sort = [0, 3] := (List.toFinset_sort (· ≤ ·) (by decide)).2 (by decide)
  have h2 : ([1, 2] : List Nat).toFinset.sort = [1, 2] := (List.toFinset_sort (· ≤ ·) (by decide)).2 (by decide)
  have h3 : ([] : List Nat).toFinset.sort = [] := (List.toFinset_sort (· ≤ ·) (by decide)).2 (by decide)
  simp only [BcrsWorld.apply, List.map_cons, List.map_nil, h1, h2, h3]
  rfl

private theorem demo_valid : AllValid (0 : Int) [] demo := by
  unfold demo
  refine ⟨⟨.inl rfl, rfl, .inr ⟨by omega, by decide⟩⟩, ?_⟩
  rw [demo_first]
  exact ⟨⟨_, rfl⟩, ⟨_, rfl, _, rfl, 0, by decide⟩, ⟨_, rfl, _, rfl, 0, by decide⟩, trivial⟩

private theorem demo_val : (run (0 : Int) [] demo).get 1 =
    some ⟨3, 4, [[(0, 0), (3, 5)], [], [(1, 7), (2, 0)]], false, true⟩ := by
  unfold demo run
  rw [List.foldl_cons, demo_first]
  rfl

private theorem demo_fits : Fits 5 (⟨3, 4, [[(0, 0), (3, 5)], [], [(1, 7), (2, 0)]], false, true⟩ : Val Int) := by
  refine ⟨by decide, ?_⟩
  simp

/-- The hypotheses are met; the loop downwards over the second matrix collects its entries from the last to the first. The
smallest possible `W` is enough. -/
example : ∃ w, demo.foldlM step ⟨demoHeap, []⟩ = .ok w ∧
    ∀ r, Pass 5 .down .down 1 (fun i c b s => ((none : Option Int), s ++ [(i, c, b)])) w [] r ↔
      r = .ok (w, [(2, 2, 0), (2, 1, 7), (0, 3, 5), (0, 0, 0)]) :=
  C99_read 5 demoHeap 0 rfl rfl demo demo_valid 1 _ demo_val demo_fits .down .down (fun i c b s => s ++ [(i, c, b)]) []

/-- Adding `10 i + c` to every entry of the second matrix; the first one keeps its zeros. -/
example : ∃ w w', demo.foldlM step ⟨demoHeap, []⟩ = .ok w ∧
    (∀ r, Pass 5 .up .down 1 (fun i c (b : Int) (u : Unit) => (some (b + 10 * i + c), u)) w () r ↔ r = .ok (w', ())) ∧
    see w' 1 = .ok (3, 4, [[(0, 0), (3, 8)], [], [(1, 28), (2, 22)]]) := by
  obtain ⟨w, w', a, b, c, -⟩ := C99_write 5 demoHeap 0 rfl rfl demo demo_valid 1 _ demo_val demo_fits .up .down
    (fun i c b => b + 10 * i + c)
  exact ⟨w, w', a, b, by rw [c]; decide⟩

/-- Why sizes must fit: with `N = W` the row iterator wraps around before it reaches `end()`, and the loop never ends with a
result after the last row; the first iterator already compares unequal to `end()` and `++` never gives `N`. -/
theorem C99_fit_needed_counterexample (W : Nat) (hW : 0 < W) (o : Obj B) (ho : o.n = W) (it : RowIt) :
    (it.increment W).equals (rowEnd o) = false ∧ (rowBegin o).equals (rowEnd o) = false := by
  have : (it.i + 1) % W < W := Nat.mod_lt _ hW
  simp only [RowIt.equals, RowIt.increment, rowEnd, rowBegin, inc, ho, beq_eq_false_iff_ne]
  omega

/-- Distances beyond half of the range come out wrong: from `begin` to `end` of 3 rows when numbers stop at 4. -/
example : (rowBegin ({ empty (B := Int) .unknown with n := 3 } : Obj Int)).distanceTo 5
    (rowEnd ({ empty (B := Int) .unknown with n := 3 } : Obj Int)) = -2 := by decide

end Iter
end Istl
