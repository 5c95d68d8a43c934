/-
The return value of the default matrix solver of meanas/fdfd/solvers.py.
-/
import Verif.Model.Solvers

namespace Meanas.Solvers

open Fdfd

variable {sh : Fin 3 → ℕ}

/-- meanas/fdfd/solvers.py:21-63 `_scipy_qmr` without the callbacks (lines 38-57, see `callCallback`): `x, _ = scipy.sparse.linalg.qmr(A, b, **kwargs)`, where `qmr` returns the
vector it has reached and a number that is zero if it converged, positive if it ran out of iterations and negative if it broke down. -/
def scipyQmr {R : Type} (qmr : Mat sh → Vec sh → Opts sh R → Vec sh × ℤ) (A : Mat sh) (b : Vec sh) (o : Opts sh R) : Vec sh := (qmr A b o).1

end Meanas.Solvers
