import Mathlib.Data.List.Dedup
import Verif.Spec.Graph

/-!
# Spanning trees of a weighted edge list
-/

namespace Theia.Spec

variable {T W : Type}

/-- The unweighted edges of a list of weighted edges. -/
def pairs (es : List (W × (T × T))) : List (T × T) := es.map (fun e => e.2)

/-- `t` is a spanning tree of the graph `es`: it uses edges of `es`, joins any two nodes of `es`,
and has one edge less than there are nodes (hence no cycle). -/
structure IsSpanningTree (es t : List (W × (T × T))) : Prop where
  sub : ∀ e ∈ t, e ∈ es
  conn : ∀ a b, IsNode (pairs es) a → IsNode (pairs es) b → Connected (pairs t) a b
  card : ∃ nodes : List T, nodes.Nodup ∧ (∀ a, a ∈ nodes ↔ IsNode (pairs es) a) ∧
    t.length + 1 = nodes.length

end Theia.Spec
