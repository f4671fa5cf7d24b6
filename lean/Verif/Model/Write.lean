import Verif.Model.Lazy

/-!
# Writing multivectors as text

Model of `extra/write.hpp`.  Citations are relative to `/repo/cpp/include/gatl/ga`.

Text is a list of characters.  How a stream writes a number depends on its flags; `Format` says what it
writes.  The outcome `none` is a template that does not compile, or reading past the end of a storage or of
the array of names.  Components whose entries are stored in a map (`extra/write.hpp:146-170`) are not
modelled: no object has a storage for them (see `Verif/Model/Copy.lean`).
-/

namespace GATL

open Expr

/-- A sequence of characters. -/
abbrev Text := List Char

/-- What the stream writes for a number of the coefficient type, for a constant (`default_integral_t`),
and for a tag or an index. -/
structure Format where
  real : ℝ → Text
  int : Int → Text
  nat : Nat → Text

/-- The loop of `write_basis_blade`, `extra/write.hpp:37-50`, with fuel for the `while`. -/
def writeBladeLoop (names : List Text) (arg : Word) : Nat → Word → Option Text
  | 0, _ => none
  | fuel + 1, b =>
    if b ≠ 0 then do
      let first ← rightmostSetBit b
      let name ← names[ones (first - 1)]?
      let rest ← writeBladeLoop names arg fuel (b ^^^ first)
      some ((if b ≠ arg then ['^'] else []) ++ name ++ rest)
    else some []

/-- `write_basis_blade`, `extra/write.hpp:31-52`. -/
def writeBlade (names : List Text) (arg : Word) : Option Text :=
  if arg = 0 then some ['1'] else writeBladeLoop names arg 65 arg

/-- One of the functions `run`: from the remaining stored numbers and bitsets to the text and what then
remains. -/
abbrev Writer := List ℝ → List Word → Option (Text × List ℝ × List Word)

/-- `os << "..."`. -/
def put (s : String) : Writer := fun vs ws => some (s.toList, vs, ws)

/-- `os << Tag`, `os << Index`. -/
def putNat (F : Format) (n : Nat) : Writer := fun vs ws => some (F.nat n, vs, ws)

/-- One after the other. -/
def inOrder : List Writer → Writer
  | [] => fun vs ws => some ([], vs, ws)
  | p :: ps => fun vs ws => do
    let (t, vs, ws) ← p vs ws
    let (t', vs, ws) ← inOrder ps vs ws
    some (t ++ t', vs, ws)

/-- The word in front of the parenthesis for the functions of one number, `extra/write.hpp:224-312`, and
for `count_one_bits`, `:326-334`. -/
def functionWord : Name → Option String
  | .absolute => some "abs("
  | .exponential => some "exp("
  | .logarithm => some "log("
  | .cosine => some "cos("
  | .sine => some "sin("
  | .tangent => some "tan("
  | .hcosine => some "cosh("
  | .hsine => some "sinh("
  | .htangent => some "tanh("
  | .countOneBits => some "count_one_bits("
  | _ => none

/-- The word between the arguments of the functions that are written between parentheses,
`extra/write.hpp:336-450`. -/
def infixWord : Name → Option String
  | .leftShift => some " LSHIFTb "
  | .band => some " ANDb "
  | .bor => some " ORb "
  | .bxor => some " XORb "
  | .equal => some " == "
  | .lessOrEqual => some " <= "
  | .logicalAnd => some " AND "
  | .logicalOr => some " OR "
  | _ => none

/-- `write_expression<add<...>>::run` and `write_expression<mul<...>>::run`, `extra/write.hpp:172-210`,
with the word between the arguments.  With fewer than two arguments there is no specialisation. -/
def writeList (sep : String) : List Writer → Writer
  | [] | [_] => fun _ _ => none
  | [l, r] => inOrder [l, put sep, r]
  | a :: b :: c :: rest => inOrder [a, put sep, writeList sep (b :: c :: rest)]

/-- `write_expression<function<Name, Arguments...>>::run` from those of the arguments,
`extra/write.hpp:172-464`. -/
def writeFn (name : Name) (args : List Writer) : Writer :=
  match name, args with
  | .add, args => writeList " + " args
  | .mul, args => writeList " * " args
  | .power, [l, r] => inOrder [put "pow(", l, put ", ", r, put ")"]
  | .reorderingSign, [l, r] => inOrder [put "reordering_sign(", l, put ", ", r, put ")"]
  | .uminus, [a] => inOrder [put "(-", a, put ")"]
  | .dec, [a] => inOrder [put "(", a, put " - <1>)"]
  | .ifElse, [t, a, b] => inOrder [put "(", t, put " ? ", a, put " : ", b, put ")"]
  | name, [a] =>
    match functionWord name with
    | some s => inOrder [put s, a, put ")"]
    | none => fun _ _ => none
  | name, [l, r] =>
    match infixWord name with
    | some s => inOrder [put "(", l, put s, r, put ")"]
    | none => fun _ _ => none
  | _, _ => fun _ _ => none

/-- `write_expression<stored_value>::run`, `extra/write.hpp:81-89`. -/
noncomputable def writeStored (F : Format) : Writer
  | [], _ => none
  | x :: vs, ws => some (if 0 ≤ x then F.real x else '(' :: F.real x ++ [')'], vs, ws)

/-- `write_expression<stored_bitset>::run`, `extra/write.hpp:117-124`. -/
def writeStoredBits (names : List Text) : Writer
  | _, [] => none
  | vs, w :: ws => (writeBlade names w).map fun t => (t, vs, ws)

mutual
/-- `write_expression<Expression>::run`, `extra/write.hpp:54-464`.  There is no specialisation for
`std::bool_constant` and for `stored_map_values` and `stored_map_bitsets` alone. -/
noncomputable def writeExpr (F : Format) (names : List Text) : Expr → Writer
  | .const v => fun vs ws => some ('<' :: F.int v ++ ['>'], vs, ws)
  | .value t i => inOrder [put "{Tag: ", putNat F t, put ", ValueIndex: ", putNat F i, put "}"]
  | .mapValues t i => inOrder [put "[{Tag: ", putNat F t, put ", MapValuesIndex: ", putNat F i, put "}]"]
  | .stored => writeStored F
  | .cbits w => fun vs ws => (writeBlade names w).map fun t => ('<' :: t ++ ['>'], vs, ws)
  | .bitset t i => inOrder [put "{Tag: ", putNat F t, put ", BitsetIndex: ", putNat F i, put "}"]
  | .mapBitsets t i => inOrder [put "[{Tag: ", putNat F t, put ", MapBitsetsIndex: ", putNat F i, put "}]"]
  | .storedBits => writeStoredBits names
  | .fn name args => writeFn name (writeArgs F names args)
  | .storedMap | .storedMapBits | .cbool _ => fun _ _ => none
/-- The functions `run` of the arguments. -/
noncomputable def writeArgs (F : Format) (names : List Text) : List Expr → List Writer
  | [] => []
  | a :: as => writeExpr F names a :: writeArgs F names as
end

/-- `write_expression<constant_basis_blade<...>>` and `write_expression<dynamic_basis_blade<...>>`,
`extra/write.hpp:126-132`. -/
noncomputable def writeBasisBlade (F : Format) (names : List Text) : Blade → Writer
  | .const b => writeExpr F names (.cbits b)
  | .dyn _ e => writeExpr F names e

/-- `is_function_v<name_t::add, Coefficient>`, `core/expression_traits.hpp:308-317`. -/
def isSum : Expr → Bool
  | .fn .add _ => true
  | _ => false

/-- `write_expression<component<Coefficient, BasisBlade>>::run`, `extra/write.hpp:134-144`. -/
noncomputable def writeComp (F : Format) (names : List Text) (c : Comp) : Writer :=
  if isSum c.coef then
    inOrder [put "(", writeExpr F names c.coef, put ")", put " * ", writeBasisBlade F names c.blade]
  else inOrder [writeExpr F names c.coef, put " * ", writeBasisBlade F names c.blade]

/-- `write_expression<add<Component, ...>>::run`, `extra/write.hpp:172-190`; a multivector with one
component is not a sum. -/
noncomputable def writeSum (F : Format) (names : List Text) : CSum → Writer
  | [] => fun _ _ => none
  | [c] => writeComp F names c
  | c :: d :: rest => inOrder [writeComp F names c, put " + ", writeSum F names (d :: rest)]

/-- `write(os, expression, basis_vectors)`, `extra/write.hpp:468-475`: the text that is written. -/
noncomputable def write (F : Format) (names : List Text) (M : Object) : Option Text :=
  (writeSum F names M.expr M.values M.bitsets).map Prod.fst

/-- The array of names of a space: the names of the `D` basis vectors of the base space and those of the
model, `model/signed/euclidean/macro_for_algebra_definition.hpp:31`,
`model/signed/homogeneous/macro_for_algebra_definition.hpp:31`,
`model/signed/plane_based/macro_for_algebra_definition.hpp:31`,
`model/signed/minkowski/macro_for_algebra_definition.hpp:31`,
`model/conformal/macro_for_algebra_definition.hpp:31`. -/
def spaceNames (D : Nat) (own : List String) : List Text :=
  ((List.range D).map fun i => 'e' :: Nat.toDigits 10 (i + 1)) ++ own.map String.toList

end GATL
