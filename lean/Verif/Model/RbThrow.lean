import Verif.Model.RbSet

/-! # `Set` and `Dict` on the trees of libstdc++, with a comparator that throws

All comparisons of `find`, `insert` and `erase` come before the first change of the tree, so an exception leaves the tree as it was (`onTree`). The set
operators build a new set, which is gone after an exception. `extend` is the exception: what was inserted before stays. -/

namespace Pyincpp
namespace BT

/-- 1100-1105 `_M_insert_range_unique` of stl_tree.h, with the tree as the state. -/
def extendS {α κ : Type} (key : α → κ) (cmp : κ → κ → Res Bool) (B : Balancer α) : List α → Meth (BT α × Nat) Unit
  | [] => pure ()
  | x :: xs => do
    let s ← Meth.get
    let _ ← onTree (insertHint key cmp B s.1.size x)
    extendS key cmp B xs

/-- `setStep`, and `extend` with what it leaves after an exception. -/
def setStepT {α : Type} (cmp : α → α → Res Bool) (B : Balancer α) : SOp α → Meth (BT α × Nat) (SRet α)
  | .extend xs => do extendS id cmp B xs; pure .unit
  | op => setStep cmp B op

/-- A history, as `SOp.run`. -/
def setRunT {α : Type} (cmp : α → α → Res Bool) (B : Balancer α) : List (SOp α) → BT α × Nat → List (Res (SRet α)) × BT α × Nat
  | [], s => ([], s)
  | op :: ops, s =>
    match setStepT cmp B op s with
    | (.ok r, s') => (.ok r :: (setRunT cmp B ops s').1, (setRunT cmp B ops s').2)
    | (.throw m, s') => (.throw m :: (setRunT cmp B ops s').1, (setRunT cmp B ops s').2)
    | (.ub u, s') => ([.ub u], s')
    | (.fuel, s') => ([.fuel], s')

/-- `dictStep`, and `extend` with what it leaves after an exception. -/
def dictStepT {K V : Type} (cmp : K → K → Res Bool) (B : Balancer (K × V)) : MOp K V → Meth (BT (K × V) × Nat) (MRet K V)
  | .extend xs => do extendS Prod.fst cmp B xs; pure .unit
  | op => dictStep cmp B op

/-- A history, as `MOp.run`. -/
def dictRunT {K V : Type} (cmp : K → K → Res Bool) (B : Balancer (K × V)) : List (MOp K V) → BT (K × V) × Nat → List (Res (MRet K V)) × BT (K × V) × Nat
  | [], s => ([], s)
  | op :: ops, s =>
    match dictStepT cmp B op s with
    | (.ok r, s') => (.ok r :: (dictRunT cmp B ops s').1, (dictRunT cmp B ops s').2)
    | (.throw m, s') => (.throw m :: (dictRunT cmp B ops s').1, (dictRunT cmp B ops s').2)
    | (.ub u, s') => ([.ub u], s')
    | (.fuel, s') => ([.fuel], s')

end BT
end Pyincpp
