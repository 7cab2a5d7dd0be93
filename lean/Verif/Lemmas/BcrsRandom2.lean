import Verif.Lemmas.BcrsRandom
import Verif.Spec.Build

/-! Whole random-mode histories. -/

namespace Istl
namespace Bcrs
variable {B : Type}

theorem asc_eq_sort (l : List Nat) (S : Finset Nat) (h : l.Pairwise (· < ·)) (hm : ∀ x, x ∈ l ↔ x ∈ S) : l = S.sort := by
  have h1 : l.toFinset = S := by ext x; simp [hm]
  rw [← h1]
  exact ((List.toFinset_sort (r := fun a b => a ≤ b) (h.imp (fun h => Nat.ne_of_lt h))).mpr (h.imp le_of_lt)).symm

theorem sort_asc (S : Finset Nat) : S.sort.Pairwise (· < ·) := by
  have h1 := S.pairwise_sort (fun a b => a ≤ b)
  have h2 := S.sort_nodup (fun a b => a ≤ b)
  exact (h1.and h2).imp (fun h => lt_of_le_of_ne h.1 h.2)

theorem zip_map_const {α β : Type} (l : List α) (d : β) : l.zip (l.map fun _ => d) = l.map fun j => (j, d) := by
  induction l with
  | nil => rfl
  | cons a t ih => simp only [List.map_cons, List.zip_cons_cons, ih]

theorem announced_append (ops : List SizeOp) (op : SizeOp) : announced (ops ++ [op]) =
    match op with
    | .set i sz => Function.update (announced ops) i sz
    | .inc i sz => Function.update (announced ops) i (announced ops i + sz) := by
  simp only [announced, List.foldl_append, List.foldl_cons, List.foldl_nil]
  cases op <;> rfl

theorem runSizes_append (ops : List SizeOp) (op : SizeOp) (s : St B) :
    runSizes (ops ++ [op]) s = (do runSizes ops; op.run : BC B Unit) s := by
  induction ops generalizing s with
  | nil =>
    simp [runSizes, Cmd.bind_def]
    cases op.run s <;> rfl
  | cons o ops ih =>
    simp only [List.cons_append, runSizes, Cmd.bind_def]
    cases h : SizeOp.run o s with
    | ok a s' => simp only [ih, Cmd.bind_def]
    | throw e s' => simp
    | ub => simp

/-- after the size calls -/
theorem runSizes_sizing {s : St B} {n m nnz : Nat} {ws : List Win} (H : Sizing s n m nnz ws)
    (h0 : ∀ w ∈ ws, w.sz = 0) (ops : List SizeOp)
    (hops : ∀ op ∈ ops, op.row < n) :
    ∃ s' ws', runSizes ops s = .ok () s' ∧ Sizing s' n m nnz ws' ∧
      ∀ i (h : i < ws'.length), ws'[i].sz = announced ops i := by
  induction ops using List.reverseRecOn with
  | nil => exact ⟨s, ws, rfl, H, fun i h => by simpa [announced] using h0 _ (List.getElem_mem h)⟩
  | append_singleton ops op ih =>
    obtain ⟨s1, ws1, hr, H1, hsz⟩ := ih (fun o ho => hops o (by simp [ho]))
    have hlen : ws1.length = n := by rw [H1.rows.1, H1.hn]
    have hrow : op.row < ws1.length := by rw [hlen]; exact hops op (by simp)
    cases op with
    | set i sz =>
      obtain ⟨s2, h2, H2⟩ := setrowsize_sizing H1 (i := i) hrow (fun _ => sz)
      refine ⟨s2, _, ?_, H2, ?_⟩
      · rw [runSizes_append, Cmd.bind_ok hr]
        simp only [SizeOp.run, setrowsize]
        rw [Cmd.bind_ok (Cmd.get_apply _)]
        simp only [H1.mode, H1.ready, ne_eq, not_true, if_false]
        exact h2
      · intro q hq
        rw [announced_append]
        simp only [List.getElem_set, Function.update_apply]
        rw [List.length_set] at hq
        by_cases hqi : i = q
        · simp [hqi]
        · rw [if_neg hqi, if_neg (Ne.symm hqi)]
          exact hsz q hq
    | inc i sz =>
      obtain ⟨s2, h2, H2⟩ := setrowsize_sizing H1 (i := i) hrow (fun x => x + sz)
      refine ⟨s2, _, ?_, H2, ?_⟩
      · rw [runSizes_append, Cmd.bind_ok hr]
        simp only [SizeOp.run, incrementrowsize]
        rw [Cmd.bind_ok (Cmd.get_apply _)]
        simp only [H1.mode, H1.ready, ne_eq, not_true, if_false]
        exact h2
      · intro q hq
        rw [announced_append]
        simp only [List.getElem_set, Function.update_apply]
        rw [List.length_set] at hq
        by_cases hqi : i = q
        · subst hqi
          simp only [if_true]
          exact congrArg (· + sz) (hsz i hq)
        · rw [if_neg hqi, if_neg (Ne.symm hqi)]
          exact hsz q hq

/-- The memory represents the pattern `S`. -/
def Pat (s : St B) (n m : Nat) (cap : Nat → Nat) (S : Nat → Finset Nat) : Prop :=
  ∃ segs rest ws, Sized s n m segs rest ws ∧ segs.length = n ∧
    ∀ i (h : i < segs.length), segs[i] = (S i).sort ++ List.replicate (cap i - (S i).card) m ∧
      (S i).card ≤ cap i ∧ ∀ x ∈ S i, x < m

theorem sum_range_eq (ws : List Win) (f : Nat → Nat) (h : ∀ i (h : i < ws.length), ws[i].sz = f i) :
    (ws.map Win.sz).sum = ∑ i ∈ Finset.range ws.length, f i := by
  have : ws.map Win.sz = (List.range ws.length).map f := by
    apply List.ext_getElem (by simp)
    intro i h1 h2
    simp only [List.length_map] at h1
    simp [h i h1]
  rw [this]
  rfl

theorem endrowsizes_pat {s : St B} {n m nnz : Nat} {ws : List Win} (H : Sizing s n m nnz ws) (cap : Nat → Nat)
    (hcap : ∀ i (h : i < ws.length), ws[i].sz = cap i) (hsuf : nnz = 0 ∨ ∑ i ∈ Finset.range n, cap i ≤ nnz) :
    ∃ s', endrowsizes s = .ok () s' ∧ Pat s' n m cap (fun _ => ∅) := by
  have hlen : ws.length = n := by rw [H.rows.1, H.hn]
  obtain ⟨s', rest, ws', h1, H1⟩ := endrowsizes_sized H (by rw [sum_range_eq ws cap hcap, hlen]; exact hsuf)
  refine ⟨s', h1, _, rest, ws', H1, by simpa using hlen, ?_⟩
  intro i h
  simp only [List.length_map] at h
  simp [hcap i h]

/-- One insertion refines the specification. -/
theorem addindex_pat {s : St B} {n m : Nat} {cap : Nat → Nat} {S : Nat → Finset Nat} (H : Pat s n m cap S) {i : Nat}
    (hi : i < n) (j : Nat) :
    (j ∈ S i → addindex i j s = .ok () s) ∧
    (¬ Accept m cap S i j → addindex i j s = .throw .bcrsMatrixError s) ∧
    (Accept m cap S i j → ∃ s', addindex i j s = .ok () s' ∧ s'.o = s.o ∧ s'.h.as = s.h.as ∧
      Pat s' n m cap (Function.update S i (insert j (S i)))) := by
  obtain ⟨segs, rest, ws, H1, hlen, hS⟩ := H
  have his : i < segs.length := by omega
  obtain ⟨hseg, hcard, hlt⟩ := hS i his
  have hasc := sort_asc (S i)
  have hmem : ∀ x, x ∈ (S i).sort ↔ x ∈ S i := fun x => Finset.mem_sort (fun a b => a ≤ b)
  have hltl : ∀ x ∈ (S i).sort, x < m := fun x hx => hlt x ((hmem x).mp hx)
  by_cases hjm : j < m
  · obtain ⟨ha, hb, hc⟩ := addindex_sized H1 his j hjm (S i).sort (cap i - (S i).card) hseg hasc hltl
    refine ⟨fun h => ha ((hmem j).mpr h), ?_, ?_⟩
    · intro hna
      unfold Accept at hna
      push Not at hna
      have := hna hjm
      exact hb (fun h => this.1 ((hmem j).mp h)) (by omega)
    · intro hacc
      by_cases hin : j ∈ S i
      · refine ⟨s, ha ((hmem j).mpr hin), rfl, rfl, ?_⟩
        rw [Finset.insert_eq_of_mem hin, Function.update_eq_self]
        exact ⟨segs, rest, ws, H1, hlen, hS⟩
      · have hroom : (S i).card < cap i := by
          rcases hacc.2 with h | h
          · exact absurd h hin
          · exact h
        obtain ⟨s', h1, h2, h3, h4⟩ := hc (fun h => hin ((hmem j).mp h)) (cap i - (S i).card - 1) (by omega)
        refine ⟨s', h1, h2, h3, _, rest, ws, h4, by simpa using hlen, ?_⟩
        intro q hq
        rw [List.length_set] at hq
        simp only [List.getElem_set, Function.update_apply]
        by_cases hqi : i = q
        · subst hqi
          have hins : insAsc j (S i).sort = (insert j (S i)).sort := by
            apply asc_eq_sort
            · exact insAsc_asc j _ hasc (fun h => hin ((hmem j).mp h))
            · intro x
              rw [mem_insAsc, hmem]
              simp
          simp only [if_true, hins, Finset.card_insert_of_notMem hin]
          refine ⟨by congr 2, by omega, ?_⟩
          intro x hx
          rcases Finset.mem_insert.mp hx with rfl | hx
          · exact hjm
          · exact hlt x hx
        · rw [if_neg hqi, if_neg (Ne.symm hqi)]
          exact hS q hq
  · refine ⟨fun h => absurd (hlt j h) hjm, fun _ => addindex_ge H1 i j (by omega), fun h => absurd h.1 hjm⟩

theorem collected_append (m : Nat) (cap : Nat → Nat) (calls : List (Nat × Nat)) (c : Nat × Nat) :
    collected m cap (calls ++ [c]) =
      if Accept m cap (collected m cap calls) c.1 c.2 then
        Function.update (collected m cap calls) c.1 (insert c.2 (collected m cap calls c.1))
      else collected m cap calls := by
  simp only [collected, List.foldl_append, List.foldl_cons, List.foldl_nil]
  congr

theorem runAdds_append (calls : List (Nat × Nat)) (c : Nat × Nat) (s : St B) :
    runAdds (calls ++ [c]) s = (do runAdds calls; attempt (addindex c.1 c.2) : BC B Unit) s := by
  induction calls generalizing s with
  | nil =>
    simp [runAdds, Cmd.bind_def]
    cases attempt (addindex c.1 c.2) s <;> rfl
  | cons o ops ih =>
    simp only [List.cons_append, runAdds, Cmd.bind_def]
    cases h : attempt (addindex o.1 o.2) s with
    | ok a s' => simp only [ih, Cmd.bind_def]
    | throw e s' => simp
    | ub => simp

theorem runAdds_pat {s : St B} {n m : Nat} {cap : Nat → Nat} (H : Pat s n m cap (fun _ => ∅)) (calls : List (Nat × Nat))
    (hrow : ∀ c ∈ calls, c.1 < n) :
    ∃ s', runAdds calls s = .ok () s' ∧ s'.o = s.o ∧ s'.h.as = s.h.as ∧ Pat s' n m cap (collected m cap calls) := by
  induction calls using List.reverseRecOn with
  | nil => exact ⟨s, rfl, rfl, rfl, H⟩
  | append_singleton calls c ih =>
    obtain ⟨s1, h1, ho1, ha1, H1⟩ := ih (fun x hx => hrow x (by simp [hx]))
    obtain ⟨-, hb, hc⟩ := addindex_pat H1 (hrow c (by simp)) c.2
    rw [collected_append]
    by_cases hacc : Accept m cap (collected m cap calls) c.1 c.2
    · obtain ⟨s2, h2, ho2, ha2, H2⟩ := hc hacc
      refine ⟨s2, ?_, by rw [ho2, ho1], by rw [ha2, ha1], by rw [if_pos hacc]; exact H2⟩
      rw [runAdds_append, Cmd.bind_ok h1]
      simp [attempt, h2]
    · refine ⟨s1, ?_, ho1, ha1, by rw [if_neg hacc]; exact H1⟩
      rw [runAdds_append, Cmd.bind_ok h1]
      simp [attempt, hb hacc]

/-- A run without exceptions equals the run that ignores exceptions, and nothing was rejected. -/
theorem runAddsStrict_ok {s : St B} {n m : Nat} {cap : Nat → Nat} {S : Nat → Finset Nat} (H : Pat s n m cap S)
    (calls : List (Nat × Nat)) (hrow : ∀ c ∈ calls, c.1 < n) (s' : St B) (h : runAddsStrict calls s = .ok () s') :
    s'.o = s.o ∧ ∃ S', Pat s' n m cap S' ∧ ∀ i j, j ∈ S' i ↔ j ∈ S i ∨ (i, j) ∈ calls := by
  induction calls generalizing s S with
  | nil =>
    simp only [runAddsStrict, Cmd.pure_apply, Out.ok.injEq, true_and] at h
    subst h
    exact ⟨rfl, S, H, by simp⟩
  | cons c cs ih =>
    obtain ⟨-, hb, hc⟩ := addindex_pat H (hrow c (by simp)) c.2
    by_cases hacc : Accept m cap S c.1 c.2
    · obtain ⟨s1, h1, ho1, -, H1⟩ := hc hacc
      simp only [runAddsStrict] at h
      rw [Cmd.bind_ok h1] at h
      obtain ⟨ho, S', H', hS'⟩ := ih H1 (fun x hx => hrow x (by simp [hx])) h
      refine ⟨by rw [ho, ho1], S', H', ?_⟩
      intro i j
      rw [hS' i j, Function.update_apply]
      have : (i, j) = c ↔ i = c.1 ∧ j = c.2 := by
        constructor
        · rintro rfl; simp
        · rintro ⟨h1, h2⟩; exact Prod.ext h1 h2
      simp only [List.mem_cons, this]
      by_cases hic : i = c.1
      · simp [hic]; tauto
      · simp [hic]
    · simp only [runAddsStrict] at h
      rw [Cmd.bind_throw (hb hacc)] at h
      cases h

/-- `endindices()` delivers what is stored in the segments. -/
theorem endindices_view {s : St B} {n m : Nat} {segs : List (List Nat)} {rest : List Nat} {ws : List Win}
    (H1 : Sized s n m segs rest ws) (hlen : segs.length = n) (cols : List (List Nat)) (tl : Nat → List Nat)
    (htl : ∀ i, (tl i).takeWhile (· < m) = []) (hcl : cols.length = n)
    (hseg : ∀ i (h : i < segs.length) (h2 : i < cols.length), segs[i] = cols[i] ++ tl i)
    (hlt : ∀ c ∈ cols, ∀ x ∈ c, x < m) :
    ∃ s' rows, endindices s = .ok () s' ∧ s'.o.ready = .built ∧ view s' = .ok (n, m, rows) ∧ rows.length = n ∧
      (∀ i (h : i < rows.length) (h2 : i < cols.length), rows[i] = cols[i].map fun j => (j, s.h.dflt)) ∧
      s'.o.nnz = cols.flatten.length + rest.length := by
  obtain ⟨s', ws', h1, hr, hn, hm, hrows, -, -, hjs, hz, hwl, hw, ⟨rest', hH⟩, -, -⟩ :=
    endindices_tail H1 cols tl htl (by rw [hcl, hlen]) hseg hlt
  refine ⟨s', List.zipWith List.zip cols (cols.map fun c => c.map fun _ => s.h.dflt), h1, hr, ?_, by simp [hcl], ?_, hz⟩
  · unfold view
    rw [hrows.getD, List.take_of_length_le (by rw [← hrows.1]), rowsView_ok s'.h ws' cols
      (cols.map fun c => c.map fun _ => s.h.dflt) hwl.symm (by simp [hwl])
      (fun i h1 h2 => (hw i h1 h2 (by omega)).2.1), Res.ok_bind, hn, hm]
    intro i h1 h2
    have h3 : i < cols.length := by omega
    obtain ⟨e1, -, -, e4⟩ := hw i h1 h3 (by omega)
    have := hH.read h2 (p := ws'[i].p) (by
      intro hp
      apply e4
      simpa using hp)
    rw [e1, ← this]
    simp
  · intro i h h3
    simp only [List.getElem_zipWith, List.getElem_map]
    exact zip_map_const _ _

/-- `endindices()` delivers the pattern. -/
theorem endindices_pat {s : St B} {n m : Nat} {cap : Nat → Nat} {S : Nat → Finset Nat} (H : Pat s n m cap S) :
    ∃ s' rows, endindices s = .ok () s' ∧ s'.o.ready = .built ∧ view s' = .ok (n, m, rows) ∧ rows.length = n ∧
      ∀ i (h : i < rows.length), rows[i] = (S i).sort.map fun j => (j, s.h.dflt) := by
  obtain ⟨segs, rest, ws, H1, hlen, hS⟩ := H
  set cols := (List.range n).map fun i => (S i).sort with hcols
  have hcl : cols.length = n := by simp [cols]
  have hcg : ∀ i (h : i < cols.length), cols[i] = (S i).sort := by intro i h; simp [cols]
  obtain ⟨s', ws', h1, hr, hn, hm, hrows, -, -, hjs, -, hwl, hw, ⟨rest', hH⟩, -, -⟩ :=
    endindices_tail H1 cols (fun i => List.replicate (cap i - (S i).card) m) (fun i => replicate_takeWhile _ _) (by rw [hcl, hlen])
      (fun i h h2 => by rw [hcg i h2]; exact (hS i h).1)
      (by
        intro c hc x hx
        obtain ⟨i, hi, rfl⟩ := List.getElem_of_mem hc
        rw [hcg i hi] at hx
        exact (hS i (by omega)).2.2 x ((Finset.mem_sort (fun a b => a ≤ b)).mp hx))
  refine ⟨s', List.zipWith List.zip cols (cols.map fun c => c.map fun _ => s.h.dflt), h1, hr, ?_, by simp [hcl], ?_⟩
  · unfold view
    rw [hrows.getD, List.take_of_length_le (by rw [← hrows.1]), rowsView_ok s'.h ws' cols
      (cols.map fun c => c.map fun _ => s.h.dflt) hwl.symm (by simp [hwl])
      (fun i h1 h2 => (hw i h1 h2 (by omega)).2.1), Res.ok_bind, hn, hm]
    intro i h1 h2
    have h3 : i < cols.length := by omega
    obtain ⟨e1, -, -, e4⟩ := hw i h1 h3 (by omega)
    have := hH.read h2 (p := ws'[i].p) (by
      intro hp
      apply e4
      simpa using hp)
    rw [e1, ← this]
    simp
  · intro i h
    simp only [List.length_zipWith, List.length_map] at h
    have h3 : i < cols.length := by omega
    simp only [List.getElem_zipWith, List.getElem_map, hcg i h3]
    exact zip_map_const _ _

end Bcrs
end Istl
