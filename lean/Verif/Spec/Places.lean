import Verif.Spec.Tree

/-! Reading a tree from left to right, independently of the parser: the places the nodes of a tree record, in
the order in which their text must stand in a source. -/

namespace Cddlc.Spec

/-- The place of a part of an operator that is a name or a number; a part that was not written (the lower bound of
`*`) or that is not remembered (an integer as key) has the place of the operator itself. -/
def besides (pos : Pos) (part : Pos) : List Pos := if part = pos then [] else [part]

/-- The place of a number of an occurrence or a tag, if there is one. -/
def numberAt : Option UintLit → List Pos
  | none => []
  | some u => [u.pos]

/-- The place of the comment behind a rule or an entry. -/
def commentAt : Option Comment → List Pos
  | none => []
  | some c => [c.pos]

mutual
/-- The places recorded in a tree, from left to right: an operator between two operands has its place between
theirs, a prefix operator and an opening bracket before, a comment behind. The upper bound of an occurrence is not
counted, since the parser reads it a second time as the item, where it is (`2*5 int` is an occurrence of `5`). The range without bounds, that the parser
makes of a range whose lower end is neither number nor name, records no place. -/
def places : Node → List Pos
  | .nil => []
  | .typedNil _ => []
  | .array p rs => p :: placesList rs
  | .badNode _ _ b _ => places b
  | .boolType p _ => [p]
  | .boolLit r _ => [r.start]
  | .bstr p _ => [p]
  | .bytes p _ => [p]
  | .cddl p rs => p :: placesList rs
  | .comment c => [c.pos]
  | .commentGroup cs => cs.map (·.pos)
  | .bits p _ a b => places a ++ p :: places b
  | .comparator p _ _ a b => places a ++ p :: places b
  | .regexp p _ b r => b.pos :: p :: places r
  | .size p _ s t => places t ++ p :: places s
  | .entry p n v c => besides p n.pos ++ p :: (places v ++ commentAt c)
  | .enumeration p _ v => p :: places v
  | .floatType p _ => [p]
  | .floatLit r _ _ => [r.start]
  | .group p es => p :: placesList es
  | .groupChoice p _ a b => places a ++ p :: places b
  | .ident i => [i.pos]
  | .intType p _ => [p]
  | .nintType p _ => [p]
  | .intLit p _ _ => [p]
  | .map p es => p :: placesList es
  | .null p _ => [p]
  | .optional p _ i => p :: places i
  | .nm p _ n _ i => (numberAt n).flatMap (besides p) ++ p :: places i
  | .range _ _ .nil .nil => []
  | .range p _ a b => places a ++ p :: places b
  | .rule _ n v c => n.pos :: (places v ++ commentAt c)
  | .tag p _ _ b i => p :: (numberAt b ++ places i)
  | .textLit p _ _ => [p]
  | .tstr t => [t.pos]
  | .typeChoice p _ a b => places a ++ p :: places b
  | .uintType r _ => [r.start]
  | .uintLit u => [u.pos]
  | .unwrap p _ i => p :: places i
/-- The places recorded in trees standing one behind the other. -/
def placesList : List Node → List Pos
  | [] => []
  | x :: xs => places x ++ placesList xs
end

end Cddlc.Spec
