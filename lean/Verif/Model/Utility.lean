import Verif.Cpp

/-! # sources/utility.hpp -/

namespace Pyincpp

/-- utility.hpp:31-37 `check_bounds`: throws unless `begin <= pos < end`. -/
def checkBounds (pos begin_ end_ : Int) : Res Unit :=
  if pos < begin_ ∨ pos ≥ end_ then .throw "Error: Index out of range." else .ok ()

/-- utility.hpp:40-46 `check_empty`. -/
def checkEmpty (size : Int) : Res Unit :=
  if size = 0 then .throw "Error: The container is empty." else .ok ()

/-- utility.hpp:49-55 `check_full`. -/
def checkFull (size capacity : Int) : Res Unit :=
  if size ≥ capacity then .throw "Error: The container has reached the maximum size." else .ok ()

/-- utility.hpp:58-65 `check_zero`, the comparison `number == T(0)` being the caller's. -/
def checkZero (isZero : Bool) : Res Unit :=
  if isZero then .throw "Error: Divide by zero." else .ok ()

end Pyincpp
