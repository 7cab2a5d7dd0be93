import Verif.Model.Aggregator

/-!
# Specification: which vertices a growing aggregate prefers

Counts over the edges of a vertex, and the vertices of a list with the largest value of a score. Nothing here follows the loops of the
code.
-/

namespace Istl
namespace Amg

variable (G : Graph) (P : Props) (st : AgSt)

/-- Edges of `v` to vertices of the aggregate under construction, on which `v` depends and which `v` influences. -/
def mutualEdges (v : Nat) : Nat :=
  (G.adj v).countP fun t => decide (st.agg t = .id st.id.toNat ∧ P.dep v t = true ∧ P.infl v t = true)

/-- Edges of `v` to vertices of the aggregate under construction, on which `v` depends without influencing them. -/
def dependEdges (v : Nat) : Nat :=
  (G.adj v).countP fun t => decide (st.agg t = .id st.id.toNat ∧ P.dep v t = true ∧ P.infl v t = false)

/-- Edges of `v` to vertices in aggregates the one under construction is already connected with. -/
def knownEdges (v : Nat) : Nat := (G.adj v).countP fun t => decide (st.agg t ≠ .unagg ∧ st.agg t ∈ st.conn)

/-- One plus the share of the edges of `v` that lead to aggregates already connected. -/
def familiarity (v : Nat) : ℚ := 1 + (knownEdges G st v : ℚ) / ((G.adj v).length : ℚ)

/-- Edges of `v` to vertices marked as front vertices. -/
def frontEdges (v : Nat) : Nat := (G.adj v).countP st.flag

/-- Strength of the coupling of `v` with a set of vertices: its dependencies plus its influences. -/
def coupling (S : Nat → Prop) [DecidablePred S] (v : Nat) : Nat :=
  ((G.adj v).countP fun t => decide (S t ∧ P.dep v t = true)) + (G.adj v).countP fun t => decide (S t ∧ P.infl v t = true)

/-- The elements of a list with the largest value of `f`, in their order. -/
def best {α : Type} [LE α] [DecidableLE α] (f : Nat → α) (l : List Nat) : List Nat := l.filter fun v => decide (∀ u ∈ l, f u ≤ f v)

/-- Front vertices, not isolated, with a mutual strong connection to the aggregate. -/
def mutualFront : List Nat := st.front.filter fun v => decide (P.isolated v = false ∧ 0 < mutualEdges G P st v)

/-- Front vertices, not isolated, that depend on the aggregate, but only one way. -/
def dependFront : List Nat :=
  st.front.filter fun v => decide (P.isolated v = false ∧ mutualEdges G P st v = 0 ∧ 0 < dependEdges G P st v)

/-- Mutual connections: the most of them, then the most familiar. -/
def mutualBest : List Nat := best (familiarity G st) (best (mutualEdges G P st) (mutualFront G P st))

/-- The vertices an aggregate wants next. With mutual connections: the best of them, from the first one that has the most front
neighbours on. Otherwise: the vertices with the most one-way dependencies, among these the most familiar ones, among these the ones
with the most front neighbours. -/
def wanted : List Nat :=
  if mutualFront G P st ≠ [] then
    (mutualBest G P st).dropWhile fun v => decide (v ∉ best (frontEdges G st) (mutualBest G P st))
  else best (frontEdges G st) (best (familiarity G st) (best (dependEdges G P st) (dependFront G P st)))

/-- The vertex an isolated aggregate wants next: the last of the most familiar front vertices with the most front neighbours. -/
def wantedIsolated : Option Nat :=
  (best (frontEdges G st) (best (familiarity G st) (st.front.filter fun v => decide (G.adj v ≠ [])))).getLast?

/-- A front vertex that belongs to the aggregate more than to the vertices still free. -/
def Surrounded (v : Nat) : Prop :=
  P.isolated v = false ∧ 0 < mutualEdges G P st v + dependEdges G P st v ∧
    coupling G P (fun t => st.agg t = .unagg) v < coupling G P (fun t => st.agg t = .id st.id.toNat) v

instance (v : Nat) : Decidable (Surrounded G P st v) := by unfold Surrounded; infer_instance

/-! ## Steps of the growth -/

/-- The front is the ascending list of the vertices without aggregate that a vertex of the aggregate has an edge to. -/
def TrueFront : Prop :=
  st.front.Pairwise (· < ·) ∧ ∀ t, t ∈ st.front ↔ st.agg t = .unagg ∧ ∃ u ∈ st.verts, t ∈ G.adj u

/-- `st'` is `st` after the vertices `vs` were added to the aggregate one after the other. `unmark` says whether they lose their mark
as front vertices (the code only removes it when several vertices are added at once). -/
structure Extends (unmark : Bool) (vs : List Nat) (st st' : AgSt) : Prop where
  id : st'.id = st.id
  verts : ∀ v, v ∈ st'.verts ↔ v ∈ st.verts ∨ v ∈ vs
  asc : st.verts.Pairwise (· < ·) → st'.verts.Pairwise (· < ·)
  agg : ∀ v, st'.agg v = if v ∈ vs then .id st.id.toNat else st.agg v
  conn : ∀ x, x ∈ st'.conn ↔ x ∈ st.conn ∨
    ∃ l v r, vs = l ++ v :: r ∧ ∃ t ∈ G.adj v, x = if t ∈ l ++ [v] then .id st.id.toNat else st.agg t
  nodup : st.conn.Nodup → st'.conn.Nodup
  flag : ∀ t, st'.flag t = true ↔ (st.flag t = true ∧ (unmark = true → t ∉ vs)) ∨ (st'.agg t = .unagg ∧ ∃ v ∈ vs, t ∈ G.adj v)

/-- Steps are taken exactly as long as `more` holds. -/
inductive RunsWhile (more : AgSt → Prop) (next : AgSt → AgSt → Prop) : AgSt → AgSt → Prop
  | stop {st : AgSt} : ¬ more st → RunsWhile more next st st
  | step {st st' st'' : AgSt} : more st → next st st' → RunsWhile more next st' st'' → RunsWhile more next st st''

/-- Growth of an aggregate of vertices that are not isolated: below the minimal size it takes the wanted vertices, as many as the
maximal size allows, until there are none. -/
def Grows (c : Crit) : AgSt → AgSt → Prop :=
  RunsWhile (fun st => st.verts.length < c.minSize ∧ wanted G P st ≠ []) fun st st' =>
    Extends G true ((wanted G P st).take (c.maxSize - st.verts.length)) st st' ∧ TrueFront G st'

/-- Growth of an isolated aggregate: below the minimal size and the maximal connectivity it takes the wanted vertex, until there is
none. -/
def GrowsIsolated (c : Crit) : AgSt → AgSt → Prop :=
  RunsWhile (fun st => st.verts.length < c.minSize ∧ st.conn.length < c.maxConn ∧ wantedIsolated G st ≠ none) fun st st' =>
    ∃ v, wantedIsolated G st = some v ∧ Extends G false [v] st st' ∧ TrueFront G st'

/-- Rounding: below the maximal size the aggregate takes the first front vertex that is surrounded, until there is none. -/
def Rounds (c : Crit) : AgSt → AgSt → Prop :=
  RunsWhile (fun st => st.verts.length < c.maxSize ∧ ∃ v ∈ st.front, Surrounded G P st v) fun st st' =>
    ∃ l v r, st.front = l ++ v :: r ∧ (∀ u ∈ l, ¬ Surrounded G P st u) ∧ Surrounded G P st v ∧
      Extends G true [v] st st' ∧ TrueFront G st'

/-- A vertex whose aggregate `v` can join. -/
def Joinable (v t : Nat) : Prop := st.agg t ≠ .unagg ∧ P.isolated t = false ∧ (P.dep v t = true ∨ P.infl v t = true)

/-- The end of an aggregate with seed `sd`: if it has one vertex, more would be allowed and it is not isolated, it joins the aggregate
of the first neighbour it can join and its number becomes free again. -/
inductive Settles (c : Crit) (sd : Nat) : AgSt → AgSt → Prop
  | keep {st : AgSt} : ¬ (st.verts.length = 1 ∧ 1 < c.maxSize ∧ P.isolated sd = false ∧ ∃ t ∈ G.adj sd, Joinable P st sd t) →
      Settles c sd st st
  | join {st : AgSt} {l r : List Nat} {t : Nat} : st.verts.length = 1 → 1 < c.maxSize → P.isolated sd = false → G.adj sd = l ++ t :: r →
      (∀ u ∈ l, ¬ Joinable P st sd u) → Joinable P st sd t →
      Settles c sd st { st with agg := upd st.agg sd (st.agg t), id := st.id - 1 }

/-- The front marks are removed. -/
def Cleared (st st' : AgSt) : Prop :=
  st'.agg = st.agg ∧ st'.id = st.id ∧ st'.front = [] ∧ ∀ t, st'.flag t = true ↔ st.flag t = true ∧ t ∉ st.front

/-- A new aggregate with the single vertex `v`. Its set of connected aggregates starts with the number of the vertex. -/
def Seeded (v : Nat) (st st' : AgSt) : Prop :=
  Extends G false [v] { st with conn := [.id v], verts := [], id := st.id + 1 } st' ∧ TrueFront G st'

/-- The states of the aggregation after the vertices `0, …, i-1`. -/
inductive Aggregation (c : Crit) : Nat → AgSt → Prop
  | start : Aggregation c 0 ⟨fun _ => .unagg, [], fun _ => false, [], [], -1⟩
  | taken {i : Nat} {st : AgSt} : Aggregation c i st → st.agg i ≠ .unagg → Aggregation c (i + 1) st
  | skipped {i : Nat} {st s0 : AgSt} : Aggregation c i st → st.agg i = .unagg →
      (P.excluded i = true ∨ (P.isolated i = true ∧ c.skipIsolated = true)) → Cleared st s0 →
      Aggregation c (i + 1) { s0 with agg := upd s0.agg i .iso }
  | isolated {i : Nat} {st s0 s1 s2 : AgSt} : Aggregation c i st → st.agg i = .unagg →
      P.excluded i = false → P.isolated i = true → c.skipIsolated = false →
      Cleared st s0 → Seeded G i s0 s1 → GrowsIsolated G c s1 s2 → Aggregation c (i + 1) s2
  | grown {i : Nat} {st s0 s1 s2 s3 s4 : AgSt} : Aggregation c i st → st.agg i = .unagg →
      P.excluded i = false → P.isolated i = false →
      Cleared st s0 → Seeded G i s0 s1 → Grows G P c s1 s2 → Rounds G P c s2 s3 → Settles G P c i s3 s4 → Aggregation c (i + 1) s4

end Amg
end Istl
