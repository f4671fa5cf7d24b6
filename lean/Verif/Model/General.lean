import Verif.Model.Grades

/-!
# Products in a general (non-orthogonal) metric

Model of `core/general_metric_mapping.hpp`.  Citations are relative to
`/repo/cpp/include/gatl/ga`.

The metric is its `entry<RowIndex, ColumnIndex>` (1-based indices).  The two operands are basis
blades whose possible-grade set is the singleton of their grade: constant blades, and run-time
blades of one grade.  Run-time blades of several possible grades are not modelled here.  All loops
are recursions over template arguments; they get fuel, and `none` is "out of fuel or undefined
behaviour in a constant expression" (the program does not compile).
-/

namespace GATL

variable {K : Type*} [CommRing K]

/-- `rightmost_one_t`, `core/expression_traits.hpp:634-635` (the negation is modular; for a constant
bitset with only bit 63 set the code negates a signed number, which no space of up to 63
dimensions reaches). -/
def rightOne (b : Word) : Word := b &&& -b

/-- `indirect_element_bitset`, `core/expression_traits.hpp:637-652`. -/
def indirectElement : Word → Nat → Word
  | b, 0 => rightOne b
  | b, i + 1 => indirectElement (b ^^^ rightOne b) i

/-- `indirect_subset`, `core/expression_traits.hpp:654-677`, with fuel. -/
def indirectSubset : Nat → Word → Word → Option Word
  | 0, _, _ => none
  | fuel + 1, b, ind =>
    if ind = 0 then some 0
    else do
      let r ← rightmostSetBit ind
      let rest ← indirectSubset fuel b (ind ^^^ r)
      some (indirectElement b (setBitIndex r) ||| rest)

/-- Index of a basis vector, `1 + count_one_bits(bitwise_dec(v))`:
`core/general_metric_mapping.hpp:44,53,77,97-101,122-123`. -/
def metricIndex (b : Word) : Nat := 1 + ones (b - 1)

/-- The recursion of `determinant::sum<ColumnIndex>`, `core/general_metric_mapping.hpp:46-89`:
`sum<1>` is the first term, `sum<i>` adds the `i`-th term. -/
def colSum (term : Nat → K) : Nat → K
  | 0 => 0
  | 1 => term 1
  | i + 2 => colSum term (i + 1) + term (i + 2)

/-- `determinant<Space, Rows, Columns, N>`, `core/general_metric_mapping.hpp:32-131`. -/
def determinant (entry : Nat → Nat → K) : Nat → Word → Word → K
  | 0, _, _ => 1
  | 1, rows, cols => entry (metricIndex rows) (metricIndex cols)
  | 2, rows, cols =>
    let row1 := rightOne rows
    let row2 := rows ^^^ row1
    let col1 := rightOne cols
    let col2 := cols ^^^ col1
    let a11 := entry (metricIndex row1) (metricIndex col1)
    let a12 := entry (metricIndex row1) (metricIndex col2)
    let a21 := entry (metricIndex row2) (metricIndex col1)
    let a22 := entry (metricIndex row2) (metricIndex col2)
    a11 * a22 + -1 * (a21 * a12)
  | n + 3, rows, cols =>
    let row1 := rightOne rows
    let others := rows ^^^ row1
    colSum (fun i =>
      let coli := indirectElement cols (i - 1)
      let sign : K := if i = 1 then 1 else if i % 2 = 0 then -1 else 1
      sign * entry (metricIndex row1) (metricIndex coli)
        * determinant entry (n + 2) others (cols ^^^ coli)) (n + 3)

/-- `result_component`, `core/general_metric_mapping.hpp:150-177`: the candidate survives if its
grade is among the possible grades of the product and `are_valid_grades` accepts it. -/
def resultComponent (p : GradedProduct) (cand A B : Word) (c : K × Word) : K × Word :=
  (if cand &&& ((1 : Word) <<< ones c.2) ≠ 0 ∧
      areValidGrades p (ones A) (ones B) (ones c.2) = true then c.1 else 0, c.2)

/-- One candidate component of `indirect_rows_summation`,
`core/general_metric_mapping.hpp:183-206`. -/
def rowsTerm (entry : Nat → Nat → K) (n : Nat) (A B cols rows : Word) : K × Word :=
  let order := ones cols
  let compl := B ^^^ rows
  let guard : K := if order ≤ ones A ∧ order ≤ ones B then 1 else 0
  let m := regMul n A (cols ^^^ basisVectors n)
  let x := extMul m.2 compl
  (guard * determinant entry order rows cols * (m.1 : K) * (reorderingSign rows compl : K) * (x.1 : K),
    x.2)

/-- `indirect_rows_summation<Columns, IndirectRows>`, `core/general_metric_mapping.hpp:179-221`. -/
def rowsSum (entry : Nat → Nat → K) (n : Nat) (p : GradedProduct) (cand A B cols : Word) :
    Nat → Word → Option (List (K × Word))
  | 0, _ => none
  | fuel + 1, ind =>
    if ind = 0 then some []
    else
      (indirectSubset 65 B ind).bind fun rows =>
      (nextCombination ind (leftmostSetBit ((1 : Word) <<< ones B) - 1)).bind fun next =>
      (rowsSum entry n p cand A B cols fuel next).map fun rest =>
        resultComponent p cand A B (rowsTerm entry n A B cols rows) :: rest

/-- The sign of a set of columns, `core/general_metric_mapping.hpp:234`. -/
def columnsSign (cols : Word) : Int :=
  if ones (cols &&& 0x5555555555555555#64) &&& 1 = 0 then 1 else -1

/-- Scale the components of a sum: product with a scalar component,
`core/general_metric_mapping.hpp:233-237` and `:258-274`. -/
def scaleComponents (s : Int) (l : List (K × Word)) : List (K × Word) :=
  l.map fun c => ((s : K) * c.1, c.2)

/-- `columns_summation<Columns>`, `core/general_metric_mapping.hpp:223-245`. -/
def columnsSum (entry : Nat → Nat → K) (n : Nat) (p : GradedProduct) (cand A B : Word)
    (rowsFuel : Nat) : Nat → Word → Option (List (K × Word))
  | 0, _ => none
  | fuel + 1, cols =>
    if cols = 0 then some []
    else
      (firstCombination (ones cols)).bind fun first =>
      (rowsSum entry n p cand A B cols rowsFuel first).bind fun here =>
      (nextCombination cols (basisVectors n)).bind fun next =>
      (columnsSum entry n p cand A B rowsFuel fuel next).map fun rest =>
        scaleComponents (columnsSign cols) here ++ rest

/-- The sign of an order, `core/general_metric_mapping.hpp:259-270`: bit 0 of
`-2 * Order + Order * left_grade`. -/
def orderSign (order leftGrade : Nat) : Int :=
  if (-2 * (order : Int) + order * leftGrade) % 2 = 0 then 1 else -1

/-- `order_summation<Order>`, `core/general_metric_mapping.hpp:247-292`. -/
def orderSum (entry : Nat → Nat → K) (n : Nat) (p : GradedProduct) (cand A B : Word) (fuel : Nat) :
    Nat → Option (List (K × Word))
  | 0 =>
    let m := regMul n A (basisVectors n)
    let x := extMul m.2 B
    some [resultComponent p cand A B ((m.1 : K) * (x.1 : K), x.2)]
  | order + 1 =>
    (orderSum entry n p cand A B fuel order).bind fun lower =>
    (firstCombination (order + 1)).bind fun first =>
    (columnsSum entry n p cand A B fuel fuel first).map fun here =>
      lower ++ scaleComponents (orderSign (order + 1) (ones A)) here

/-- `general_metric_mapping<Space, GradedProduct>::multiply<A, B>`,
`core/general_metric_mapping.hpp:133-297`: the list of components whose sum is the product. -/
def genMul (fuel : Nat) (entry : Nat → Nat → K) (n : Nat) (p : GradedProduct) (A B : Word) :
    Option (List (K × Word)) :=
  (gradedGrades n p ((1 : Word) <<< ones A) ((1 : Word) <<< ones B)).bind fun cand =>
    orderSum entry n p cand A B fuel
      (min (setBitIndex (leftmostSetBit ((1 : Word) <<< ones A)))
        (setBitIndex (leftmostSetBit ((1 : Word) <<< ones B))))

/-- The multivector denoted by a list of components. -/
noncomputable def ofComponents (l : List (K × Word)) : MV K :=
  (l.map fun c => Finsupp.single c.2 c.1).sum

/-- The metric products of multivectors in a general metric space: bilinear extension of
`genMul` (`core/expression_simplification_product_components.hpp:77-128`). -/
noncomputable def genProd (fuel : Nat) (entry : Nat → Nat → K) (n : Nat) (p : GradedProduct) :
    MV K →ₗ[K] MV K →ₗ[K] MV K :=
  Finsupp.linearCombination K fun A => Finsupp.linearCombination K fun B =>
    ofComponents ((genMul fuel entry n p A B).getD [])

end GATL
