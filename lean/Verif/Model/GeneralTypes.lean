import Verif.Model.Components
import Verif.Model.General

/-!
# Products in a general metric, at the level of types

Model of the `multiply` template of `core/general_metric_mapping.hpp` on component types (`Model/General.lean` has the same
computation on the values), and of the `entry` templates of `model/conformal/metric_space.hpp` and
`model/general/metric_space.hpp`.  Citations are relative to `/repo/cpp/include/gatl/ga`.  `none` means that the program
does not compile.
-/

namespace GATL

open Expr

/-- `rightmost_one_t`, `core/expression_traits.hpp:634-635`. -/
def mkRightOne (b : Expr) : Option Expr := do some (mkAnd b (← mkUminus b))

/-- `indirect_element_bitset_t`, `core/expression_traits.hpp:637-652`. -/
def mkElement : Expr → Nat → Option Expr
  | b, 0 => mkRightOne b
  | b, i + 1 => do mkElement (mkXor b (← mkRightOne b)) i

/-- `indirect_subset_t`, `core/expression_traits.hpp:654-677`, with fuel. -/
def mkSubset : Nat → Expr → Word → Option Expr
  | 0, _, _ => none
  | fuel + 1, b, ind =>
    if ind = 0 then some (.cbits 0)
    else do
      let r ← rightmostSetBit ind
      let current ← mkElement b (setBitIndex r)
      some (mkOr current (← mkSubset fuel b (ind ^^^ r)))

/-- The index of a basis vector, `core/general_metric_mapping.hpp:44,53,77,97-101,122-123`. -/
def mkIndex (k : Nat) (b : Expr) : Option Expr := simp k .add (.const 1) (mkCountOneBits (mkDec b))

/-- `GeneralMetricSpace::entry<Row, Column>::type` with the given depth. -/
abbrev MetricEntry := Nat → Expr → Expr → Option Expr

/-- The recursion of `determinant::sum<ColumnIndex>`, `core/general_metric_mapping.hpp:46-89`. -/
def mkColSum (k : Nat) (term : Nat → Option Expr) : Nat → Option Expr
  | 0 => none
  | 1 => term 1
  | i + 2 => do simp k .add (← mkColSum k term (i + 1)) (← term (i + 2))

/-- `determinant_t<Space, Rows, Columns, N>`, `core/general_metric_mapping.hpp:32-131`. -/
def mkDeterminant (k : Nat) (entry : MetricEntry) : Nat → Expr → Expr → Option Expr
  | 0, _, _ => some (.const 1)
  | 1, rows, cols => do entry k (← mkIndex k rows) (← mkIndex k cols)
  | 2, rows, cols => do
    let row1 ← mkRightOne rows
    let row2 := mkXor rows row1
    let col1 ← mkRightOne cols
    let col2 := mkXor cols col1
    let a11 ← entry k (← mkIndex k row1) (← mkIndex k col1)
    let a12 ← entry k (← mkIndex k row1) (← mkIndex k col2)
    let a21 ← entry k (← mkIndex k row2) (← mkIndex k col1)
    let a22 ← entry k (← mkIndex k row2) (← mkIndex k col2)
    simp k .add (← simp k .mul a11 a22) (← simp k .mul (.const (-1)) (← simp k .mul a21 a12))
  | n + 3, rows, cols => do
    let row1 ← mkRightOne rows
    let others := mkXor rows row1
    mkColSum k (fun i => do
      let coli ← mkElement cols (i - 1)
      let a ← entry k (← mkIndex k row1) (← mkIndex k coli)
      let a' ← if i = 1 then some a else simp k .mul (.const (if i % 2 = 0 then -1 else 1)) a
      simp k .mul a' (← mkDeterminant k entry (n + 2) others (mkXor cols coli))) (n + 3)

/-- `result_component_t<CandidateComponent>`, `core/general_metric_mapping.hpp:150-177`. -/
def mkResult (k n : Nat) (g : GradedProduct) (cand : Word) (L R : Blade) : CSum → Option CSum
  | [c] => do
    let G := cand &&& c.blade.grades
    let blade := candidateBlade n G c.blade.bits
    let valid ← mkValidGrades k g (mkCountOneBits L.bits) (mkCountOneBits R.bits) (mkCountOneBits blade.bits)
    let test := if G ≠ 0 then valid else .cbool false
    some [mkComp (mkIfElse test c.coef (.const 0)) blade]
  | _ => none

/-- `candidate_component` of `indirect_rows_summation`, `core/general_metric_mapping.hpp:190-206`. -/
def mkRowsTerm (k : Nat) (entry : MetricEntry) (n : Nat) (L R : Blade) (cols : Word) (rows : Expr) : Option CSum := do
  let order := ones cols
  let compl := mkXor R.bits rows
  let guard := mkIfElse (mkLogicalAnd (mkLessOrEqual (.const order) (mkCountOneBits L.bits))
    (mkLessOrEqual (.const order) (mkCountOneBits R.bits))) (.const 1) (.const 0)
  let det ← mkDeterminant k entry order rows (.cbits cols)
  let m ← mulC (regMapping n) k [mkComp guard L] [mkComp det (.const (cols ^^^ basisVectors n))]
  mulC (extMapping n) k m [mkComp (mkReorderingSign rows compl) (Blade.deduce (safeRshift R.grades order) compl)]

/-- `indirect_rows_summation_t<Columns, IndirectRows>`, `core/general_metric_mapping.hpp:179-221`. -/
def mkRowsSum (k : Nat) (entry : MetricEntry) (n : Nat) (g : GradedProduct) (cand : Word) (L R : Blade) (cols : Word) :
    Nat → Word → Option CSum
  | 0, _ => none
  | fuel + 1, ind =>
    if ind = 0 then some [Comp.zero]
    else do
      let rows ← mkSubset 65 R.bits ind
      let here ← mkResult k n g cand L R (← mkRowsTerm k entry n L R cols rows)
      let next ← nextCombination ind (leftmostSetBit R.grades - 1)
      addC k here (← mkRowsSum k entry n g cand L R cols fuel next)

/-- `columns_summation_t<Columns>`, `core/general_metric_mapping.hpp:223-245`. -/
def mkColumnsSum (k : Nat) (entry : MetricEntry) (n : Nat) (g : GradedProduct) (cand : Word) (L R : Blade) :
    Nat → Word → Option CSum
  | 0, _ => none
  | fuel + 1, cols =>
    if cols = 0 then some [Comp.zero]
    else do
      let first ← firstCombination (ones cols)
      let here ← mulC (extMapping n) k [mkComp (.const (columnsSign cols)) (.const 0)]
        (← mkRowsSum k entry n g cand L R cols k first)
      let next ← nextCombination cols (basisVectors n)
      addC k here (← mkColumnsSum k entry n g cand L R fuel next)

/-- The coefficient of `order_summation`, `core/general_metric_mapping.hpp:259-270`. -/
def mkOrderSign (k order : Nat) (grade : Expr) : Option Expr := do
  let s ← simp k .add (.const (-2 * order)) (← simp k .mul (.const order) grade)
  some (mkIfElse (mkEqual (mkAnd s (.const 1)) (.const 0)) (.const 1) (.const (-1)))

/-- `order_summation_t<Order>`, `core/general_metric_mapping.hpp:247-292`. -/
def mkOrderSum (k : Nat) (entry : MetricEntry) (n : Nat) (g : GradedProduct) (cand : Word) (L R : Blade) : Nat → Option CSum
  | 0 => do
    let m ← mulC (regMapping n) k [mkComp (.const 1) L] [mkComp (.const 1) (.const (basisVectors n))]
    mkResult k n g cand L R (← mulC (extMapping n) k m [mkComp (.const 1) R])
  | order + 1 => do
    let lower ← mkOrderSum k entry n g cand L R order
    let sign ← mkOrderSign k (order + 1) (mkCountOneBits L.bits)
    let here ← mulC (extMapping n) k [mkComp sign (.const 0)]
      (← mkColumnsSum k entry n g cand L R k (← firstCombination (order + 1)))
    addC k lower here

/-- `general_metric_mapping<Space, GradedProduct>::multiply<LeftBasisBlade, RightBasisBlade>`,
`core/general_metric_mapping.hpp:133-297`, for a space with the given dimensions and entries. -/
def genMapping (n : Nat) (entry : MetricEntry) (g : GradedProduct) : CMapping := fun k L R =>
  if gradesFit n L R then do
    let cand ← gradedGrades n g L.grades R.grades
    mkOrderSum k entry n g cand L R
      (min (setBitIndex (leftmostSetBit L.grades)) (setBitIndex (leftmostSetBit R.grades)))
  else none

/-- `conformal_metric_space<D>::entry<Row, Column>`, `model/conformal/metric_space.hpp:40-47`. -/
def mkConformalEntry (D : Nat) : MetricEntry := fun _ r c =>
  let d : Expr := .const D
  some (mkIfElse (mkEqual r c) (mkIfElse (mkLessOrEqual r d) (.const 1) (.const 0))
    (mkIfElse (mkLogicalOr (mkLessOrEqual r d) (mkLessOrEqual c d)) (.const 0) (.const (-1))))

/-- `general_metric_space<Entries...>::entry<Row, Column>`, `model/general/metric_space.hpp:27-68`: the entries in row-major
order; an index that is not a constant has no specialisation. -/
def mkMatrixEntry (n : Nat) (entries : List Expr) : MetricEntry := fun k r c => do
  let r' ← simp k .add r (.const (-1))
  let c' ← simp k .add c (.const (-1))
  match ← simp k .add (← simp k .mul (.const n) r') c' with
  | .const i => if 0 ≤ i then entries[i.toNat]? else none
  | _ => none

end GATL
