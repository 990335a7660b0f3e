import Mathlib.Algebra.Order.Field.Basic
import Verif.Model.RotationFilters

/-!
# Filter of view pairs by relative translations

Models src/theia/sfm/filter_view_pairs_from_relative_translation.cc over an ordered field, without rounding. The random
axes are inputs. The order of iteration of the map of nodes in step `i` is `ord i`. The updates of the accumulated
weights are made under a lock by the tasks of a thread pool, so any interleaving is a permutation of the updates; it is
the parameter `schedule`.
-/

namespace Theia
namespace TranslationFilter

open TwoView

variable {K : Type} [Field K] [LinearOrder K]

/-- `MFASNode` (lines 59-64). -/
structure Node (K : Type) where
  incoming : AMap Nat K
  outgoing : AMap Nat K
  inW : K
  outW : K
  deriving DecidableEq

/-- The node that `operator[]` makes. -/
def Node.fresh : Node K := ⟨.empty, .empty, 0, 0⟩

/-- Access through `operator[]`, which makes a missing node, and change. -/
def update (nodes : AMap Nat (Node K)) (v : Nat) (f : Node K → Node K) : AMap Nat (Node K) :=
  nodes.insert v (f ((nodes.get v).getD Node.fresh))

/-- Choosing a source, or else a node with the largest score (`FindNextViewInOrder`, lines 90-110). `none` is
`kInvalidViewId`. -/
def findNext : List (Nat × Node K) → Option Nat → K → Option Nat
  | [], best, _ => best
  | (v, n) :: rest, best, bestScore =>
    if n.incoming.size = 0 then some v
    else if (n.outW + 1) / (n.inW + 1) > bestScore then findNext rest (some v) ((n.outW + 1) / (n.inW + 1))
    else findNext rest best bestScore

/-- The direction of an edge (lines 120-124). -/
def direction (e : (Nat × Nat) × K) : Nat × Nat := if e.2 > 0 then e.1 else (e.1.2, e.1.1)

/-- One edge (lines 126-133). -/
def addProjection (nodes : AMap Nat (Node K)) (e : (Nat × Nat) × K) : AMap Nat (Node K) :=
  let p := direction e
  let weight := |e.2|
  let nodes := update nodes p.2 (fun n => { n with inW := n.inW + weight })
  let nodes := update nodes p.1 (fun n => { n with outW := n.outW + weight })
  let nodes := update nodes p.2 (fun n => { n with incoming := n.incoming.emplace p.1 weight })
  update nodes p.1 (fun n => { n with outgoing := n.outgoing.emplace p.2 weight })

/-- All edges (lines 118-134). -/
def build (es : List ((Nat × Nat) × K)) : AMap Nat (Node K) := es.foldl addProjection .empty

/-- The loop over the incoming nodes of the view to remove (lines 147-152). -/
def dropOutgoing (next : Nat) : List (Nat × K) → AMap Nat (Node K) → AMap Nat (Node K)
  | [], nodes => nodes
  | (x, w) :: rest, nodes =>
    let nodes := update nodes x (fun n => { n with outW := n.outW - w })
    dropOutgoing next rest (update nodes x (fun n => { n with outgoing := n.outgoing.erase next }))

/-- The loop over the outgoing nodes of the view to remove (lines 153-158). -/
def dropIncoming (next : Nat) : List (Nat × K) → AMap Nat (Node K) → AMap Nat (Node K)
  | [], nodes => nodes
  | (x, w) :: rest, nodes =>
    let nodes := update nodes x (fun n => { n with inW := n.inW - w })
    dropIncoming next rest (update nodes x (fun n => { n with incoming := n.incoming.erase next }))

/-- The removal of a view (lines 145-159). -/
def removeNode (next : Nat) (info : Node K) (nodes : AMap Nat (Node K)) : AMap Nat (Node K) :=
  (dropIncoming next info.outgoing.entries (dropOutgoing next info.incoming.entries nodes)).erase next

/-- The loop that makes the order (lines 137-160): steps left, step, nodes, order so far. -/
def orderLoop (ord : Nat → List (Nat × Node K) → List (Nat × Node K)) :
    Nat → Nat → AMap Nat (Node K) → AMap Nat Nat → Outcome (AMap Nat Nat)
  | 0, _, _, order => .ok order
  | left + 1, i, nodes, order =>
    match findNext (ord i nodes.entries) none 0 with
    | none => .abort
    | some next =>
      match nodes.get next with
      | none => .abort
      | some info => orderLoop ord left (i + 1) (removeNode next info nodes) (order.insert next i)

/-- `OrderTranslationsFromProjections` (lines 114-163). -/
def orderTranslations (ord : Nat → List (Nat × Node K) → List (Nat × Node K)) (projections : AMap (Nat × Nat) K) :
    Outcome (AMap Nat Nat) :=
  let nodes := build projections.entries
  orderLoop ord nodes.size 0 nodes .empty

/-- `ProjectTranslationsOntoAxis` (lines 166-177). -/
def projectOnto (axis : V3 K) (translations : AMap (Nat × Nat) (V3 K)) : AMap (Nat × Nat) K :=
  translations.mapVals (fun _ t => t.dot axis)

/-- Whether order and projection of an edge disagree (lines 246-247). -/
def Contradicts (first second : Nat) (projection : K) : Prop :=
  ((second : Int) - (first : Int) < 0 ∧ projection > 0) ∨ ((second : Int) - (first : Int) > 0 ∧ projection < 0)

instance (a b : Nat) (x : K) : Decidable (Contradicts a b x) := by unfold Contradicts; infer_instance

/-- The updates one iteration makes (lines 233-251) for the edges in the map of weights. -/
def edgeUpdates (order : AMap Nat Nat) (projections : AMap (Nat × Nat) K) :
    List (Nat × Nat) → Outcome (List ((Nat × Nat) × K))
  | [] => .ok []
  | p :: ps =>
    match order.get p.2, order.get p.1, projections.get p with
    | some second, some first, some projection =>
      match edgeUpdates order projections ps with
      | .abort => .abort
      | .ub => .ub
      | .ok us => if Contradicts first second projection then .ok ((p, |projection|) :: us) else .ok us
    | _, _, _ => .abort

/-- `TranslationFilteringIteration` (lines 199-252) with the random axis given: the updates it makes. -/
def iteration (ord : Nat → List (Nat × Node K) → List (Nat × Node K)) (translations : AMap (Nat × Nat) (V3 K))
    (edges : List (Nat × Nat)) (axis : V3 K) : Outcome (List ((Nat × Nat) × K)) :=
  let projections := projectOnto axis translations
  match orderTranslations ord projections with
  | .abort => .abort
  | .ub => .ub
  | .ok order => edgeUpdates order projections edges

/-- The updates of all tasks (lines 281-291), one task per axis. -/
def allUpdates (ord : Nat → Nat → List (Nat × Node K) → List (Nat × Node K)) (translations : AMap (Nat × Nat) (V3 K))
    (edges : List (Nat × Nat)) : Nat → List (V3 K) → Outcome (List ((Nat × Nat) × K))
  | _, [] => .ok []
  | k, axis :: rest =>
    match iteration (ord k) translations edges axis with
    | .abort => .abort
    | .ub => .ub
    | .ok us =>
      match allUpdates ord translations edges (k + 1) rest with
      | .abort => .abort
      | .ub => .ub
      | .ok vs => .ok (us ++ vs)

/-- The locked additions (lines 248-249). -/
def accumulate (us : List ((Nat × Nat) × K)) (bad : AMap (Nat × Nat) K) : AMap (Nat × Nat) K :=
  us.foldl (fun bad u => bad.modify u.1 (fun w => w + u.2)) bad

/-- `RotateRelativeTranslationsToGlobalFrame` (lines 68-85). -/
noncomputable def rotateTranslations (eps : ℝ) (orientations : AMap Nat (V3 ℝ)) :
    List ((Nat × Nat) × Info) → Outcome (List ((Nat × Nat) × V3 ℝ))
  | [] => .ok []
  | e :: es =>
    match orientations.get e.1.1 with
    | none => .abort
    | some o =>
      match rotateTranslations eps orientations es with
      | .abort => .abort
      | .ub => .ub
      | .ok ts => .ok ((e.1, AngleAxis.rotate eps (o.smul (-1)) e.2.position) :: ts)

/-- `FilterViewPairsFromRelativeTranslation` (lines 256-308): the number of iterations is the number of axes. -/
noncomputable def filter (eps : ℝ) (ord : Nat → Nat → List (Nat × Node ℝ) → List (Nat × Node ℝ))
    (schedule : List ((Nat × Nat) × ℝ) → List ((Nat × Nat) × ℝ)) (axes : List (V3 ℝ)) (tolerance : ℝ)
    (orientations : AMap Nat (V3 ℝ)) (g : ViewGraph Info) : Outcome (ViewGraph Info) :=
  let bad : AMap (Nat × Nat) ℝ := ⟨g.allEdges.map (fun e => (e.1, 0))⟩
  match rotateTranslations eps orientations g.allEdges with
  | .abort => .abort
  | .ub => .ub
  | .ok translations =>
    match allUpdates ord ⟨translations⟩ (g.allEdges.map (fun e => e.1)) 0 axes with
    | .abort => .abort
    | .ub => .ub
    | .ok us =>
      let bad := accumulate (schedule us) bad
      let limit := tolerance * axes.length
      .ok (RotationFilters.removeAll ((bad.entries.filter (fun e => decide (e.2 > limit))).map (fun e => e.1)) g)

end TranslationFilter
end Theia
