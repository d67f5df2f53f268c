import Verif.Cpp

/-! # The repository's own tests, run on the model

The files in this directory are no part of any proof. They repeat the assertions of `/repo/tests/test_*.cpp` about the model: the tests
document what the real code does, so the transcription has to agree with every one of them. Each `example` is evaluated by the kernel.

`b!"..."` is the list of the bytes of a string literal. -/

namespace Pyincpp.Tests

open Lean in
/-- The bytes of a string literal. -/
macro:max "b!" s:str : term => do
  let bytes := s.getString.toUTF8.toList.toArray.map fun b => Syntax.mkNumLit (toString b.toNat)
  `(([$[$bytes],*] : List UInt8))

/-- `REQUIRE(x)` -/
def holds : Res Bool → Bool
  | .ok b => b
  | _ => false

/-- `REQUIRE_THROWS_MATCHES(x, std::runtime_error, Message(m))` -/
def throws {α : Type} (m : String) : Res α → Bool
  | .throw m' => m' == m
  | _ => false

/-- The assertions of a section. -/
def all (l : List Bool) : Bool := l.all id

/-- The result of a method on an object, as the new object. -/
def after {σ α : Type} (m : Meth σ α) (s : σ) : Res σ :=
  match m s with
  | (.ok _, s') => .ok s'
  | (.throw m, _) => .throw m
  | (.ub u, _) => .ub u
  | (.fuel, _) => .fuel

end Pyincpp.Tests
