import Verif.Cpp

/-! # Sequencing of methods -/

namespace Pyincpp.Meth

variable {σ α β : Type} {x : Meth σ α} {f : α → Meth σ β} {s s' : σ}

theorem run_ok {a : α} (h : x s = (.ok a, s')) : (x >>= f) s = f a s' := by
  show Meth.bind x f s = _
  unfold Meth.bind
  rw [h]

theorem run_throw {m : String} (h : x s = (.throw m, s')) : (x >>= f) s = (.throw m, s') := by
  show Meth.bind x f s = _
  unfold Meth.bind
  rw [h]

theorem run_ub {k : UB} (h : x s = (.ub k, s')) : (x >>= f) s = (.ub k, s') := by
  show Meth.bind x f s = _
  unfold Meth.bind
  rw [h]

theorem run_fuel (h : x s = (.fuel, s')) : (x >>= f) s = (.fuel, s') := by
  show Meth.bind x f s = _
  unfold Meth.bind
  rw [h]

end Pyincpp.Meth
