import Verif.Model.FBDT
import Verif.Model.ID3

/-!
# Model of the equality of trees: `__eq__` of `TreeFDT`, `TreeFBDT` and `TreeID3`

The attribute `features` of `TreeID3` is an argument of its methods in `Model/ID3.lean`, so it is an argument here too. Comparing with an
object that is not a tree of the same kind (`False`) is left out.
-/

namespace Teacher

section
variable {κ ν : Type} [DecidableEq κ] [DecidableEq ν]

/-- `==` of two dicts: the same keys with the same values, in any order. -/
def Dict.pyEq (d e : Dict κ ν) : Bool :=
  d.length == e.length && d.all (fun kv => Dict.get? e kv.1 == some kv.2)

/-- `==` of two attributes `class_value`, each a dict or `-1`. -/
def classValueEq : Option (Dict κ ν) → Option (Dict κ ν) → Bool
  | none, none => true
  | some d, some e => Dict.pyEq d e
  | _, _ => false

end

variable {V C K : Type} [DecidableEq V] [DecidableEq C] [DecidableEq K]

mutual
/-- `TreeFDT.__eq__` (tree/fdt_tree.py:65-73); the attribute `fuzzy_variable` is not compared. -/
def FNode.pyEq : FNode C K → FNode C K → Bool
  | .mk test level mu isLeaf cv children, .mk test' level' mu' isLeaf' cv' children' =>
    isLeaf == isLeaf' && FNode.pyEqList children children' && classValueEq cv cv' && level == level' &&
      test.map (fun t => (t.att, t.idx)) == test'.map (fun t => (t.att, t.idx)) && mu == mu'
/-- `==` of two lists of trees. -/
def FNode.pyEqList : List (FNode C K) → List (FNode C K) → Bool
  | [], [] => true
  | c :: cs, d :: ds => FNode.pyEq c d && FNode.pyEqList cs ds
  | _, _ => false
end

mutual
/-- `TreeFBDT.__eq__` (tree/fdt_binary_tree.py:66-74); the attribute `fuzzy_variable` is not compared. -/
def BNode.pyEq : BNode C K → BNode C K → Bool
  | .mk test level mu isLeaf cv children, .mk test' level' mu' isLeaf' cv' children' =>
    isLeaf == isLeaf' && BNode.pyEqList children children' && classValueEq cv cv' && level == level' &&
      test.map (fun t => (t.att, t.idxs)) == test'.map (fun t => (t.att, t.idxs)) && mu == mu'
/-- `==` of two lists of trees. -/
def BNode.pyEqList : List (BNode C K) → List (BNode C K) → Bool
  | [], [] => true
  | c :: cs, d :: ds => BNode.pyEq c d && BNode.pyEqList cs ds
  | _, _ => false
end

mutual
/-- `TreeID3.__eq__` (tree/id3_tree.py:49-61), without `features`. -/
def INode.pyEq : INode V C K → INode V C K → Bool
  | .mk isLeaf var branches cv count level error numLeaf, .mk isLeaf' var' branches' cv' count' level' error' numLeaf' =>
    var == var' && isLeaf == isLeaf' && INode.pyEqList branches branches' && cv == cv' && count == count' && level == level' &&
      error == error' && numLeaf == numLeaf'
/-- `==` of two lists `childlist` and of the lists `splits` next to them. -/
def INode.pyEqList : List (V × INode V C K) → List (V × INode V C K) → Bool
  | [], [] => true
  | (s, c) :: cs, (s', d) :: ds => s == s' && INode.pyEq c d && INode.pyEqList cs ds
  | _, _ => false
end

/-- `TreeID3.__eq__` (tree/id3_tree.py:49-61) of two trees with their lists of features. -/
def id3TreeEq (features features' : List String) (t u : INode V C K) : Bool := t.pyEq u && features == features'

end Teacher
