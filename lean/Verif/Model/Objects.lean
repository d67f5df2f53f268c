import Verif.Model.Stream
import Verif.Model.Str
import Verif.Model.Fraction
import Verif.Model.Complex

/-! # Copying, moving and assigning objects

The state is a store of objects of one class, by name, so that source and target may be the same object. A moved-from
`std::vector`, `deque`, `set`, `map` or `string` is left as libstdc++ leaves it, empty, also when it is moved to itself. -/

namespace Pyincpp

/-- Objects by name. -/
abbrev Store (σ : Type) := Nat → σ

/-- Write one object. -/
def Store.put {σ : Type} (s : Store σ) (a : Nat) (x : σ) : Store σ := fun i => if i = a then x else s i

namespace Obj
variable {σ : Type}

/-- Defaulted copy assignment `a = b`, also construction `T a(b)`: `List`, `Deque`, `Set`, `Dict` (implicit), int.hpp:206, 255,
fraction.hpp:51, 85, complex.hpp:37, 64. -/
def copy (a b : Nat) : Meth (Store σ) Unit := do
  let s ← Meth.get
  Meth.set (s.put a (s b))

/-- Implicit move assignment of `List`, `Deque`, `Set`, `Dict` (none is declared in the headers), also construction: the contents are
handed over and the source is emptied. -/
def moveContainer (a b : Nat) : Meth (Store (List σ)) Unit := do
  let s ← Meth.get
  Meth.set (s.put a (s b))
  let s ← Meth.get
  Meth.set (s.put b [])

/-- int.hpp:258-266 move assignment, 209-214 move construction. -/
def moveInt (a b : Nat) : Meth (Store BInt) Unit := do
  let s ← Meth.get
  Meth.set (s.put a { s a with sign := (s b).sign })
  -- chunks_ = std::move(that.chunks_)
  let s ← Meth.get
  Meth.set (s.put a { s a with chunks := (s b).chunks })
  let s ← Meth.get
  Meth.set (s.put b { s b with chunks := [] })
  -- that.sign_ = 0
  let s ← Meth.get
  Meth.set (s.put b { s b with sign := 0 })

/-- fraction.hpp:88-97 move assignment, 54-60 move construction. -/
def moveFrac (a b : Nat) : Meth (Store Frac) Unit := do
  let s ← Meth.get
  Meth.set (s.put a { s a with num := (s b).num })
  let s ← Meth.get
  Meth.set (s.put a { s a with den := (s b).den })
  let s ← Meth.get
  Meth.set (s.put b { s b with num := 0 })
  let s ← Meth.get
  Meth.set (s.put b { s b with den := 1 })

/-- complex.hpp:67-76 move assignment, 40-46 move construction. -/
def moveCx {F : Type} (A : Arith F) (a b : Nat) : Meth (Store (Cx F)) Unit := do
  let s ← Meth.get
  Meth.set (s.put a { s a with re := (s b).re })
  let s ← Meth.get
  Meth.set (s.put a { s a with im := (s b).im })
  let s ← Meth.get
  Meth.set (s.put b { s b with re := A.zero })
  let s ← Meth.get
  Meth.set (s.put b { s b with im := A.zero })

/-- A write through `const_cast` to `str_`, which is declared `const` (str.hpp:22): undefined (`strict`); compilers perform it
(`lenient`). -/
def writeStr (mem : Mem) (a : Nat) (x : List UInt8) : Meth (Store (List UInt8)) Unit := do
  match mem with
  | .strict => Meth.lift (.ub .constWrite)
  | .lenient => do
    let s ← Meth.get
    Meth.set (s.put a x)

/-- str.hpp:126 copy construction: a new object is initialised, nothing else is written. -/
def copyCtorStr (a b : Nat) : Meth (Store (List UInt8)) Unit := copy a b

/-- str.hpp:146-150 copy assignment. -/
def copyStr (mem : Mem) (a b : Nat) : Meth (Store (List UInt8)) Unit := do
  let s ← Meth.get
  writeStr mem a (s b)

/-- str.hpp:129-132 move construction: the new object is initialised, the source is emptied through `const_cast`. -/
def moveCtorStr (mem : Mem) (a b : Nat) : Meth (Store (List UInt8)) Unit := do
  let s ← Meth.get
  Meth.set (s.put a (s b))
  writeStr mem b []

/-- str.hpp:153-157 move assignment. -/
def moveStr (mem : Mem) (a b : Nat) : Meth (Store (List UInt8)) Unit := do
  let s ← Meth.get
  writeStr mem a (s b)
  writeStr mem b []

/-- str.hpp:735-738 `operator>>` on the object `a`. -/
def inputStr (mem : Mem) (a : Nat) : Meth (Store (List UInt8) × IStream) Unit := do
  let (s, is) ← Meth.get
  let r := Str.input is
  match r.1 with
  | none => Meth.set (s, r.2)
  | some line =>
    match mem with
    | .strict => Meth.lift (.ub .constWrite)
    | .lenient => Meth.set (s.put a line, r.2)

end Obj
end Pyincpp
