import Verif.Model.FBDT
import Verif.Model.ID3

/-!
# Model of comparing, hashing and printing: `__eq__`, `__hash__`, `__lt__` of fuzzy sets, `__str__` of rules and trees

`str` of numbers, classes, dicts of classes and values are parameters (any functions). Comparing a fuzzy set with an object that is not a fuzzy
set (`NotImplemented`, so `False`) is left out.
-/

namespace Teacher

variable {V C K : Type}

section
variable [DecidableEq K]

/-- `==` of fuzzy sets, generated by `@dataclass` (fuzzy/fuzzy_set.py:18, 77, 193): both of the same class, with the same fields. -/
def FSet.pyEq : FSet K → FSet K → Bool
  | .cont s, .cont t => s.name == t.name && (s.a == t.a && s.b == t.b && s.c == t.c) && s.pointSet == t.pointSet
  | .disc s, .disc t => s.name == t.name && s.value == t.value
  | _, _ => false

end

/-- `hash` of fuzzy sets (fuzzy/fuzzy_set.py:86-87): of the tuple of the name, the tuple of points and the flag; `@dataclass` (193) gives a class
with a generated `__eq__` and no `__hash__` of its own the `__hash__` `None`, so for a discrete set it raises `TypeError`. -/
def FSet.pyHash {H : Type} (hs : String → H) (hk : K → H) (hb : Bool → H) (comb : List H → H) : FSet K → Py H
  | .cont s => .ok (comb [hs s.name, comb [hk s.a, hk s.b, hk s.c], hb s.pointSet])
  | .disc _ => .error .typeError

section
variable [LinearOrder K]

/-- `<` of two lists of three points. -/
def CSet.pointsLt (s t : CSet K) : Bool :=
  if s.a ≠ t.a then decide (s.a < t.a)
  else if s.b ≠ t.b then decide (s.b < t.b)
  else if s.c ≠ t.c then decide (s.c < t.c)
  else false

/-- `<` of fuzzy sets (fuzzy/fuzzy_set.py:89-90): only continuous sets have `__lt__`, and it reads `fuzzy_points` of the other set, which a
discrete set does not have. -/
def FSet.pyLt : FSet K → FSet K → Py Bool
  | .cont s, .cont t => .ok (s.pointsLt t)
  | .cont _, .disc _ => .error .attributeError
  | .disc _, _ => .error .typeError

end

/-- `'\t' * level`. -/
def tabs (level : Int) : String := String.ofList (List.replicate level.toNat '\t')

/-- `sep.join(parts)`. -/
def pyJoin (sep : String) : List String → String
  | [] => ""
  | [a] => a
  | a :: b :: rest => a ++ sep ++ pyJoin sep (b :: rest)

/-- `Rule.__str__` (tree/rule.py:39-41); `showV`, `showC`, `showK` are `str` of the values, the consequent and the weight. -/
def Rule.str (showV : V → String) (showC : C → String) (showK : K → String) (r : Rule V C K) : String :=
  pyJoin " AND " (r.antecedent.map (fun p => p.1 ++ ": " ++ showV p.2)) ++ " => " ++ showC r.consequent ++ " (Weight: " ++ showK r.weight ++ ")"

/-- the first lines of `TreeFDT.__str__` (tree/fdt_tree.py:48-53): at the root `fuzzy_variable` is `None` and `'Root '` is written; below it the
feature and the set; if there is no set with that index `'Root '` follows the name of the feature. -/
def FNode.header (test : Option (FTest K)) : String :=
  match test with
  | none => "Root \n"
  | some t => "Feature " ++ t.var.name ++ " " ++ (match t.var.sets[t.idx]? with
    | some s => s.name ++ "\n"
    | none => "Root \n")

mutual
/-- `TreeFDT.__str__` (tree/fdt_tree.py:47-63); `showCV` is `str` of `class_value`. -/
def FNode.str (showCV : Option (Dict C K) → String) : FNode C K → String
  | .mk test level _ isLeaf cv children =>
    tabs level ++ FNode.header test ++
      (if isLeaf then tabs level ++ "Class value: " ++ showCV cv else FNode.strList showCV children ++ "\n" ++ tabs level) ++ "\n"
/-- the loop over `childlist` (tree/fdt_tree.py:57-61). -/
def FNode.strList (showCV : Option (Dict C K) → String) : List (FNode C K) → String
  | [] => ""
  | c :: cs => FNode.str showCV c ++ FNode.strList showCV cs
end

/-- the first lines of `TreeFBDT.__str__` (tree/fdt_binary_tree.py:49-54): `value[1]` is a list of indices, `fuzzy_sets[value[1]]` always raises
`TypeError`, and `'Root '` follows the name of the feature. -/
def BNode.header (test : Option (BTest K)) : String :=
  match test with
  | none => "Root \n"
  | some t => "Feature " ++ t.var.name ++ " " ++ "Root \n"

mutual
/-- `TreeFBDT.__str__` (tree/fdt_binary_tree.py:48-64); `showCV` is `str` of `class_value`. -/
def BNode.str (showCV : Option (Dict C K) → String) : BNode C K → String
  | .mk test level _ isLeaf cv children =>
    tabs level ++ BNode.header test ++
      (if isLeaf then tabs level ++ "Class value: " ++ showCV cv else BNode.strList showCV children ++ "\n" ++ tabs level) ++ "\n"
/-- the loop over `childlist` (tree/fdt_binary_tree.py:58-62). -/
def BNode.strList (showCV : Option (Dict C K) → String) : List (BNode C K) → String
  | [] => ""
  | c :: cs => BNode.str showCV c ++ BNode.strList showCV cs
end

/-- `str(self.var_index)`; `-1` stands for no variable (tree/id3_tree.py:21, 37). -/
def showVar : Option Nat → String
  | none => "-1"
  | some n => toString n

/-- `self.features[self.var_index]` (tree/id3_tree.py:43); with `var_index = -1` it is the last feature. -/
def featureAt (features : List String) : Option Nat → Py String
  | none => match features.getLast? with
    | some f => .ok f
    | none => .error .indexError
  | some n => match features[n]? with
    | some f => .ok f
    | none => .error .indexError

mutual
/-- `TreeID3.__str__` (tree/id3_tree.py:32-47); `showC`, `showN`, `showV` are `str` of the class, of `class_count` and of the values. -/
def INode.str (showC : Option C → String) (showN : Nat × Nat → String) (showV : V → String) (features : List String) : INode V C K → Py String
  | .mk isLeaf var branches cv count level _ _ =>
    if isLeaf then .ok (tabs level ++ "Class value: " ++ showC cv ++ "\tCounts: " ++ showN count)
    else do
      let body ← INode.strList showC showN showV features var level branches
      pure (tabs level ++ "Feature " ++ showVar var ++ body ++ "\n" ++ tabs level)
/-- the loop over `childlist` (tree/id3_tree.py:39-46). -/
def INode.strList (showC : Option C → String) (showN : Nat × Nat → String) (showV : V → String) (features : List String) (var : Option Nat)
    (level : Int) : List (V × INode V C K) → Py String
  | [] => .ok ""
  | (s, c) :: cs => do
    let f ← featureAt features var
    let child ← INode.str showC showN showV features c
    let rest ← INode.strList showC showN showV features var level cs
    pure ("\n" ++ tabs level ++ f ++ " = " ++ showV s ++ "\n" ++ child ++ rest)
end

end Teacher
