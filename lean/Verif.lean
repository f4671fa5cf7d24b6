import Verif.Props.Bits
import Verif.Props.Algebra
import Verif.Props.Inner
import Verif.Props.Regressive
import Verif.Props.Versor
import Verif.Props.Enumerate
import Verif.Props.Grades
import Verif.Props.General
import Verif.Props.Simplify
import Verif.Props.Components
import Verif.Props.Eval
import Verif.Props.Lazy
import Verif.Props.Vector
import Verif.Props.Spaces
import Verif.Props.Copy
import Verif.Props.Take
import Verif.Props.Tests
import Verif.Props.Unit
import Verif.Props.NormsCompile
import Verif.Props.DeltaCompile
import Verif.Props.Divide
import Verif.Props.ExpCompile
import Verif.Props.Exp
import Verif.Props.Rational
import Verif.Props.Minkowski
import Verif.Props.Math
import Verif.Props.Meet
import Verif.Props.Plunge
import Verif.Props.GeneralTypes
import Verif.Props.Metric
import Verif.Props.Conformal
import Verif.Props.Write
import Verif.Props.BasisBlade
import Verif.Props.Compile
import Verif.Props.Algebras
import Verif.Props.Rotor
import Verif.Props.Stored
import Verif.Props.ApplyVersor
import Verif.Props.Dual
import Verif.Props.Commutator
import Verif.Props.BladeOrder
