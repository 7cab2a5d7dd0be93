import Verif.Model.Parallel
import Verif.Model.Prec

/-!
# Parallel operators and preconditioners: dune/istl/schwarz.hh, dune/istl/novlpschwarz.hh

A distributed vector is a function of the process and the local index. Functions named `…On` describe what one process computes.
The communication is the one of `Verif/Model/Parallel.lean`.
-/

namespace Istl
namespace Par
variable {B V K : Type}

/-! ## Overlapping case -/

section Overlapping
variable [AddCommGroup B] [AddCommGroup V]

/-- `OverlappingSchwarzOperator::apply(x,y)` on one process: `y = 0; A.umv(x,y); project(y)`. dune/istl/schwarz.hh:116-121. -/
def ovlpApplyOn (β : BlockAct B V V) (A : SpMat B) (pis : PIS) (x : Nat → V) : Nat → V :=
  project pis (A.umv β x (fun _ => 0))

/-- `OverlappingSchwarzOperator::applyscaleadd(alpha,x,y)` on one process. dune/istl/schwarz.hh:125-129. -/
def ovlpScaleAddOn [Ring K] [Module K V] (β : BlockAct B V V) (A : SpMat B) (pis : PIS) (alpha : K) (x y : Nat → V) : Nat → V :=
  project pis (A.usmv β alpha x y)

end Overlapping

/-- `BlockPreconditioner::apply(v,d)` (both variants) on all processes; `prec p v d` is what the sequential preconditioner of process `p`
makes of `v`. dune/istl/schwarz.hh:337-348. -/
def blockPrecApply (prec : Nat → (Nat → V) → (Nat → V) → (Nat → V)) (pis : Nat → PIS) (order : Nat → List Nat) (v d : Nat → Nat → V) :
    Nat → Nat → V :=
  let w := fun p => prec p (v p) (d p)
  fun q => copyOwnerToAll pis w w q (order q)

/-- `BlockPreconditioner::pre(x,b)`; `pre p` is the one of the sequential preconditioner. dune/istl/schwarz.hh:326-330. -/
def blockPrecPre (pre : Nat → (Nat → V) → (Nat → V) → (Nat → V) × (Nat → V)) (pis : Nat → PIS) (order : Nat → List Nat)
    (x b : Nat → Nat → V) : (Nat → Nat → V) × (Nat → Nat → V) :=
  let y := fun q => copyOwnerToAll pis x x q (order q)
  (fun q => (pre q (y q) (b q)).1, fun q => (pre q (y q) (b q)).2)

/-- The sweeps of `ParSSOR::apply(v,d)` on one process, before the communication. dune/istl/schwarz.hh:218-221. -/
def parSsorOn [AddCommGroup V] [CommRing K] [Module K V] {R : Type} (β : BlockSolve R V V) (A : SpMat R) (n : Nat) (w : K) (v d : Nat → V) :
    Res (Nat → V) :=
  Prec.iterate n (Prec.ssorStep β w A d) v

/-! ## Nonoverlapping case -/

/-- `RemoteIndices` of one process: for each other process in the order of the rank the shared indices, as local index here and attribute
there (contract of dune-common). -/
abbrev Remote := List (Nat × List (Nat × Attr))

/-- The remote indices of process `p` among `P` processes. -/
def remoteOf (P : Nat) (pis : Nat → PIS) (p : Nat) : Remote :=
  ((List.range P).filter (· ≠ p)).filterMap fun q =>
    match (pis p).filterMap fun e => (lookup (pis q) e.g).map fun r => (e.loc, r.attr) with
    | [] => none
    | l => some (q, l)

/-- The mutable members of `NonoverlappingSchwarzOperator`. dune/istl/novlpschwarz.hh:248-250. -/
structure NovCache where
  build : Bool
  mask : List Nat
  border : List (Nat × Nat)

/-- Set up the mask: 1, but 0 at copy and 2 at overlap indices. dune/istl/novlpschwarz.hh:138-147. -/
def novMask (pis : PIS) (mask : List Nat) (n : Nat) : Res (List Nat) :=
  if mask.length ≠ n then
    pis.foldlM (fun m e => if e.attr = .copy then wr m e.loc 0 else if e.attr = .overlap then wr m e.loc 2 else .ok m) (List.replicate n 1)
  else .ok mask

/-- `rimap` (key `i`, process, attribute there) and `owner` (key `i`, process). dune/istl/novlpschwarz.hh:152-153. -/
structure RiMap where
  known : List (Nat × Nat × Attr)
  owner : List (Nat × Nat)

/-- One remote index for the row `i`; `owner.insert` keeps the first entry. dune/istl/novlpschwarz.hh:162-169. -/
def riStep (i q : Nat) (s : RiMap) (e : Nat × Attr) : RiMap :=
  if e.2 ≠ .overlap then
    if e.1 = i then
      { known := s.known ++ [(i, q, e.2)]
        owner := if e.2 = .owner ∧ (s.owner.lookup i).isNone then s.owner ++ [(i, q)] else s.owner }
    else s
  else s

/-- Collect what the other processes know. dune/istl/novlpschwarz.hh:157-170. -/
def novRemote (rows : Nat) (mask : List Nat) (ri : Remote) : Res RiMap :=
  (List.range rows).foldlM (fun s i => do
    let m ← rd mask i
    if m = 0 then .ok (ri.foldl (fun s r => r.2.foldl (riStep i r.1) s) s)
    else .ok s) ⟨[], []⟩

/-- The negation of `flag` after the loops over `rimap` (which only ever clear it). dune/istl/novlpschwarz.hh:180-193. -/
def novBlocked (rm : RiMap) (rank iowner i j : Nat) : Bool :=
  (rm.known.filter fun k => k.1 = i).any fun fi =>
    (rm.known.filter fun k => k.1 = j).any fun fj =>
      fj.2.1 = fi.2.1 && (fj.2.2 = .owner || fj.2.1 = iowner || fj.2.1 < rank)

/-- Build `bordercontribution`; `owner.find(i)` is dereferenced unchecked. dune/istl/novlpschwarz.hh:172-206. -/
def novBorder (A : SpMat B) (rank : Nat) (mask : List Nat) (rm : RiMap) : Res (List (Nat × Nat)) :=
  (List.range A.n).foldlM (fun bc i => do
    let m ← rd mask i
    if m = 0 then
      match rm.owner.lookup i with
      | none => .ub
      | some iowner => (A.row i).foldlM (fun bc e => do
          let mj ← rd mask e.1
          .ok (if mj = 0 ∧ novBlocked rm rank iowner i e.1 = false then bc ++ [(i, e.1)] else bc)) bc
    else .ok bc) []

/-- The first part of `novlp_op_apply`, done once. `bordercontribution` is empty before (the loop erasing through invalidated iterators
does nothing). dune/istl/novlpschwarz.hh:135-208. -/
def novSetup (A : SpMat B) (pis : PIS) (ri : Remote) (rank n : Nat) (c : NovCache) : Res NovCache :=
  if c.build then do
    let mask ← novMask pis c.mask n
    let rm ← novRemote A.n mask ri
    let border ← novBorder A rank mask rm
    .ok { build := false, mask := mask, border := border }
  else .ok c

section Nonoverlapping
variable [AddCommGroup B] [AddCommGroup V] [Ring K] [Module K V]

/-- One column of a row of `novlp_op_apply`: the new value of `y[i]`. dune/istl/novlpschwarz.hh:214-232. -/
def novTerm (β : BlockAct B V V) (c : NovCache) (alpha : K) (x : Nat → V) (i mi : Nat) (yi : V) (e : Nat × B) : Res V := do
  let mj ← rd c.mask e.1
  let t := alpha • β.mul e.2 (x e.1)
  if mi = 0 then
    if mj = 1 then .ok (yi + t)
    else if mj = 0 then
      .ok ((c.border.filter fun b => b.1 = i).foldl (fun yi b => if b.2 = e.1 then yi + t else yi) yi)
    else .ok yi
  else if mi = 1 then
    if mj ≠ 2 then .ok (yi + t) else .ok yi
  else .ok yi

/-- The second part of `novlp_op_apply(x,y,alpha)`. dune/istl/novlpschwarz.hh:211-234. -/
def novSum (β : BlockAct B V V) (A : SpMat B) (c : NovCache) (alpha : K) (x y : Nat → V) : Res (Nat → V) :=
  forRangeM A.n (fun i y => do
    let mi ← rd c.mask i
    let yi ← (A.row i).foldlM (novTerm β c alpha x i mi) (y i)
    .ok (upd y i yi)) y

/-- `novlp_op_apply(x,y,alpha)` on process `rank`, for `x` with `n` blocks. dune/istl/novlpschwarz.hh:126-235. -/
def novOpOn (β : BlockAct B V V) (A : SpMat B) (pis : PIS) (ri : Remote) (rank n : Nat) (alpha : K) (x y : Nat → V) (c : NovCache) :
    Res ((Nat → V) × NovCache) := do
  let c ← novSetup A pis ri rank n c
  let y ← novSum β A c alpha x y
  .ok (y, c)

end Nonoverlapping

/-- The communication of `NonoverlappingSchwarzOperator::apply`: `y = 0; novlp_op_apply(x,y,1); addOwnerCopyToOwnerCopy(y,y)`, where `loc p`
is the result of `novlp_op_apply` on process `p`. dune/istl/novlpschwarz.hh:101-106. -/
def novApply [Add V] (pis : Nat → PIS) (order : Nat → List Nat) (loc : Nat → Nat → V) : Nat → Nat → V :=
  fun q => addOwnerCopyToOwnerCopy pis loc loc q (order q)

/-- The same for `applyscaleadd(alpha,x,y)`, which adds the old `y`. dune/istl/novlpschwarz.hh:109-118. -/
def novScaleAdd [Add V] (pis : Nat → PIS) (order : Nat → List Nat) (loc y : Nat → Nat → V) : Nat → Nat → V :=
  fun q => addOwnerCopyToOwnerCopy pis loc loc q (order q) + y q

/-- `NonoverlappingBlockPreconditioner::apply(v,d)` (both variants). dune/istl/novlpschwarz.hh:325-339. -/
def novPrecApply [Add V] (prec : Nat → (Nat → V) → (Nat → V) → (Nat → V)) (pis : Nat → PIS) (order : Nat → List Nat)
    (v d : Nat → Nat → V) : Nat → Nat → V :=
  let w := fun p => prec p (v p) (d p)
  fun q => addOwnerCopyToOwnerCopy pis w w q (order q)

end Par
end Istl
