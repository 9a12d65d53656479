import Verif.Model.Files

/-!
# Specification: drawings of forests

A drawing in the language of the program `dot` is a list of edges between named nodes.
-/

namespace Sortnet

namespace Dot

open Files

/-- A binary tree with a name for each node. -/
inductive Bin where
  | leaf (name : Str)
  | node (name : Str) (l r : Bin)

namespace Bin

def name : Bin → Str
  | leaf s => s
  | node s _ _ => s

/-- The names of all nodes. -/
def names : Bin → List Str
  | leaf s => [s]
  | node s l r => s :: (l.names ++ r.names)

/-- The edges from each node to its children. -/
def edges : Bin → List (Str × Str)
  | leaf _ => []
  | node s l r => (s, l.name) :: (s, r.name) :: (l.edges ++ r.edges)

def leaves : Bin → ℕ
  | leaf _ => 1
  | node _ l r => l.leaves + r.leaves

end Bin

/-- The text of an edge. -/
def edgeText (e : Str × Str) : Str := str "  ".toList ++ e.1 ++ str " -> ".toList ++ e.2 ++ str ";\n".toList

/-- The text of a drawing. -/
def text (edges : List (Str × Str)) : Str := str "digraph {\n".toList ++ edges.flatMap edgeText ++ str "}\n".toList

/-- A text that draws a forest of binary trees: no two nodes of the forest have the same name, and every edge between a node
and a child is drawn once. -/
def Draws (out : Str) (trees : List Bin) : Prop :=
  out = text (trees.flatMap Bin.edges) ∧ (trees.flatMap Bin.names).Nodup

end Dot

end Sortnet
