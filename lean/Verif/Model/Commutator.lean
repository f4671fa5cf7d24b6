import Verif.Model.Rational

/-!
# The commutator product

Model of `cp`, `extra/commutator_product.hpp:29-33`, on objects.  Citations are relative to `/repo/cpp/include/gatl/ga`.
-/

namespace GATL

/-- The expression that `cp` evaluates: `(gp(lhs_, rhs_, mtr) - gp(rhs_, lhs_, mtr)) / c<2>`,
`extra/commutator_product.hpp:32`, where `/` multiplies by the inverse, `extra/arithmetic_operators.hpp:29-32`,
`extra/inverse_geometric_product.hpp:29-33`.  Simplified: the library divides in the real metric space, which makes no difference
for a scalar divisor, here in the metric space of the products. -/
def commutatorProgram : Rational :=
  .bind (.sub (.graded .gp (.input 0) (.input 1)) (.graded .gp (.input 1) (.input 0)))
    (.inv (.lit 2) (.ret (.graded .gp (.input 2) (.input 3))))

end GATL
