import Verif.Tests.Basic
import Verif.Model.Fraction
import Verif.Model.ComplexStream
import Verif.Model.Objects

/-! # tests/test_fraction.cpp, test_complex.cpp

Not repeated: the tests that use `std::hypot`, `std::atan2`, `std::exp`, ... whose values the model leaves open. -/

namespace Pyincpp.Tests.Numbers
open Pyincpp

/-! ## Fraction -/

def F (n : Int) (d : Int := 1) : Res Frac := Frac.make n d
def isF (r : Res Frac) (n : Int) (d : Int := 1) : Bool := holds (do pure (Frac.eq (← r) (← F n d)))
def zero : Res Frac := F 0
def pos : Res Frac := F 1 2
def neg : Res Frac := F (-1) 2
def bin (f : Frac → Frac → Res Frac) (a b : Res Frac) : Res Frac := do f (← a) (← b)
def rel (f : Frac → Frac → Res Bool) (a b : Res Frac) : Bool := holds (do f (← a) (← b))
def dvz : String := "Error: Divide by zero."

-- basics, compare, examination
example : all [
    throws dvz (F 1 0), isF zero 0, isF (F 9 6) 3 2, !isF zero 1 2, !isF pos (-1) 2,
    rel Frac.gtr zero neg, rel Frac.gtr (F 1 2) (F 1 3), rel Frac.lss zero pos, rel Frac.lss (F 1 4) (F 1 3),
    rel Frac.ge zero zero, rel Frac.ge zero neg, rel Frac.le zero zero, rel Frac.le zero pos,
    holds (do pure (decide ((← F 0 2).toDouble = .fin 0))), holds (do pure (decide ((← F 1 2).toDouble = .fin (1 / 2)))),
    holds (do pure (decide ((← F 2 3).toDouble = Dbl.div (.fin 2) (.fin 3)))), holds (do pure (decide ((← F 1 (-2)).toDouble = .fin (-1 / 2)))),
    holds (do pure ((← zero).num == 0 && (← pos).num == 1 && (← neg).num == -1)),
    holds (do pure ((← zero).den == 1 && (← pos).den == 2 && (← neg).den == 2))] = true := by decide +kernel

-- assignment
example : holds (do
    let a ← zero; let b ← pos; let c ← neg
    let s ← after (do Obj.copy 1 2; Obj.moveFrac 0 2) (fun i => if i = 0 then a else if i = 1 then b else c)
    pure (decide (s 1 = c ∧ s 0 = c) && isF (.ok (s 2)) 0)) = true := by decide +kernel

def incr (m : Meth Frac Unit) (n : Int) : Res Frac := do after m (← F n)

-- inc_dec, unary
example : all [
    isF (incr Frac.incM (-1)) 0, isF (incr Frac.incM 0) 1, isF (incr Frac.incM 1) 2, isF (incr Frac.incM 99999) 100000,
    isF (incr Frac.decM (-1)) (-2), isF (incr Frac.decM 0) (-1), isF (incr Frac.decM 1) 0, isF (incr Frac.decM 100000) 99999,
    isF (do Frac.neg (← zero)) 0, isF (do Frac.neg (← pos)) (-1) 2, isF (do Frac.neg (← neg)) 1 2,
    isF (do Frac.abs (← zero)) 0, isF (do Frac.abs (← pos)) 1 2, isF (do Frac.abs (← neg)) 1 2] = true := by decide +kernel

-- plus, minus, times
example : all [
    isF (bin Frac.add pos pos) 1, isF (bin Frac.add pos zero) 1 2, isF (bin Frac.add pos neg) 0,
    isF (bin Frac.add neg pos) 0, isF (bin Frac.add neg zero) (-1) 2, isF (bin Frac.add neg neg) (-1),
    isF (bin Frac.add zero pos) 1 2, isF (bin Frac.add zero zero) 0, isF (bin Frac.add zero neg) (-1) 2,
    isF (bin Frac.sub pos pos) 0, isF (bin Frac.sub pos zero) 1 2, isF (bin Frac.sub pos neg) 1,
    isF (bin Frac.sub neg pos) (-1), isF (bin Frac.sub neg zero) (-1) 2, isF (bin Frac.sub neg neg) 0,
    isF (bin Frac.sub zero pos) (-1) 2, isF (bin Frac.sub zero zero) 0, isF (bin Frac.sub zero neg) 1 2,
    isF (bin Frac.mul pos pos) 1 4, isF (bin Frac.mul pos zero) 0, isF (bin Frac.mul pos neg) (-1) 4,
    isF (bin Frac.mul neg pos) (-1) 4, isF (bin Frac.mul neg zero) 0, isF (bin Frac.mul neg neg) 1 4,
    isF (bin Frac.mul zero pos) 0, isF (bin Frac.mul zero zero) 0, isF (bin Frac.mul zero neg) 0] = true := by decide +kernel

-- divide, mod
example : all [
    isF (bin Frac.div pos pos) 1, throws dvz (bin Frac.div pos zero), isF (bin Frac.div pos neg) (-1),
    isF (bin Frac.div neg pos) (-1), throws dvz (bin Frac.div neg zero), isF (bin Frac.div neg neg) 1,
    isF (bin Frac.div zero pos) 0, throws dvz (bin Frac.div zero zero), isF (bin Frac.div zero neg) 0,
    isF (bin Frac.mod pos pos) 0, throws dvz (bin Frac.mod pos zero), isF (bin Frac.mod pos neg) 0,
    isF (bin Frac.mod neg pos) 0, throws dvz (bin Frac.mod neg zero), isF (bin Frac.mod neg neg) 0,
    isF (bin Frac.mod zero pos) 0, throws dvz (bin Frac.mod zero zero), isF (bin Frac.mod zero neg) 0,
    isF (bin Frac.add (F 1 2) (F 1 3)) 5 6, isF (bin Frac.mod (F 1 2) (F 1 3)) 1 6] = true := by decide +kernel

def gcd := bin (fun a b => Frac.gcd a b 50)
def lcm := bin (fun a b => Frac.lcm a b 50)

-- gcd_lcm
example : all [
    isF (gcd (F 0) (F 0)) 0, isF (gcd (F 0) (F 1)) 1, isF (gcd (F 1) (F 0)) 1, isF (gcd (F 1) (F 1)) 1,
    isF (gcd (F 1 2) (F 3 4)) 1 4, isF (gcd (F 3 4) (F 1 6)) 1 12, isF (gcd (F 233 2333) (F 7 77)) 1 25663, isF (gcd (F (-1) 2) (F (-3) 4)) 1 4,
    isF (lcm (F 0) (F 0)) 0, isF (lcm (F 0) (F 1)) 0, isF (lcm (F 1) (F 0)) 0, isF (lcm (F 1) (F 1)) 1,
    isF (lcm (F 1 2) (F 3 4)) 3 2, isF (lcm (F 3 4) (F 1 6)) 3 2, isF (lcm (F 233 2333) (F 7 77)) 233,
    isF (lcm (F (-1) 2) (F (-3) 4)) 3 2] = true := by decide +kernel

def readF (t : List UInt8) : Res (Frac × IStream) := do after (Frac.input 50) (← zero, { buf := t })
def badF : String := "Error: Wrong fraction literal."

-- print, input
example : all [
    holds (do pure (Frac.print (← zero) == b!"0")), holds (do pure (Frac.print (← pos) == b!"1/2")), holds (do pure (Frac.print (← neg) == b!"-1/2")),
    holds (do
      let (a, s) ← readF b!"  +1/-2  \n  233 \t 1234/4321  0"
      let (b, s) ← after (Frac.input 50) (a, s)
      let (c, s) ← after (Frac.input 50) (b, s)
      let (d, _) ← after (Frac.input 50) (c, s)
      pure (isF (.ok a) (-1) 2 && isF (.ok b) 233 && isF (.ok c) 1234 4321 && isF (.ok d) 0)),
    throws badF (readF b!"z1/2"), throws badF (readF b!"1z/2"), throws badF (readF b!"1/z2"), throws badF (readF b!"1/2z"),
    throws badF (readF b!"1|2"), throws dvz (readF b!"0/0")] = true := by decide +kernel

/-! ## Complex -/

def C (r : ℚ) (i : ℚ := 0) : Cx Dbl := ⟨Dbl.ofRat r, Dbl.ofRat i⟩
def A := Arith.double
def eqC (x y : Cx Dbl) : Bool := Cx.eq A x y
def isC (r : Res (Cx Dbl)) (y : Cx Dbl) : Bool := holds (do pure (eqC (← r) y))
def c0 := C 0
def cp := C 1 2
def cn := C (-1) 2

-- compare, examination, unary
example : all [
    eqC c0 c0, eqC cp cp, !eqC c0 cp, !eqC cp cn,
    decide (c0.re = .fin 0 ∧ cp.re = .fin 1 ∧ cn.re = .fin (-1) ∧ c0.im = .fin 0 ∧ cp.im = .fin 2 ∧ cn.im = .fin 2),
    eqC (Cx.neg A c0) (C 0), eqC (Cx.neg A cp) (C (-1) (-2)), eqC (Cx.neg A cn) (C 1 (-2)),
    eqC (Cx.conjugate A c0) (C 0), eqC (Cx.conjugate A cp) (C 1 (-2)), eqC (Cx.conjugate A cn) (C (-1) (-2))] = true := by decide +kernel

-- assignment
example : holds (do
    let s ← after (do Obj.copy 1 2; Obj.moveCx A 0 2) (fun i => if i = 0 then c0 else if i = 1 then cp else cn)
    pure (eqC (s 1) cn && eqC (s 0) cn && eqC (s 2) c0)) = true := by decide +kernel

-- plus, minus, times
example : all [
    eqC (Cx.add A cp cp) (C 2 4), eqC (Cx.add A cp c0) (C 1 2), eqC (Cx.add A cp cn) (C 0 4),
    eqC (Cx.add A cn cp) (C 0 4), eqC (Cx.add A cn c0) (C (-1) 2), eqC (Cx.add A cn cn) (C (-2) 4),
    eqC (Cx.add A c0 cp) (C 1 2), eqC (Cx.add A c0 c0) (C 0), eqC (Cx.add A c0 cn) (C (-1) 2),
    eqC (Cx.sub A cp cp) (C 0), eqC (Cx.sub A cp c0) (C 1 2), eqC (Cx.sub A cp cn) (C 2),
    eqC (Cx.sub A cn cp) (C (-2)), eqC (Cx.sub A cn c0) (C (-1) 2), eqC (Cx.sub A cn cn) (C 0),
    eqC (Cx.sub A c0 cp) (C (-1) (-2)), eqC (Cx.sub A c0 c0) (C 0), eqC (Cx.sub A c0 cn) (C 1 (-2)),
    eqC (Cx.mul A cp cp) (C (-3) 4), eqC (Cx.mul A cp c0) (C 0), eqC (Cx.mul A cp cn) (C (-5)),
    eqC (Cx.mul A cn cp) (C (-5)), eqC (Cx.mul A cn c0) (C 0), eqC (Cx.mul A cn cn) (C (-3) (-4)),
    eqC (Cx.mul A c0 cp) (C 0), eqC (Cx.mul A c0 c0) (C 0), eqC (Cx.mul A c0 cn) (C 0)] = true := by decide +kernel

-- divide
example : all [
    isC (Cx.div A cp cp) (C 1), throws dvz (Cx.div A cp c0), isC (Cx.div A cp cn) (C (3 / 5) (-4 / 5)),
    isC (Cx.div A cn cp) (C (3 / 5) (4 / 5)), throws dvz (Cx.div A cn c0), isC (Cx.div A cn cn) (C 1),
    isC (Cx.div A c0 cp) (C 0), throws dvz (Cx.div A c0 c0), isC (Cx.div A c0 cn) (C 0)] = true := by decide +kernel

def noMath : CMath Dbl := ⟨fun _ _ => .nan, fun _ _ => .nan, fun _ _ => .nan, fun _ => .nan, fun _ => .nan, fun _ => .nan, fun _ => .nan⟩
def mde : String := "Error: Math domain error."

-- pow, as far as no function of <cmath> is called
example : all [
    isC (Cx.pow A noMath cp c0) (C 1), isC (Cx.pow A noMath cn c0) (C 1), isC (Cx.pow A noMath c0 c0) (C 1),
    throws mde (Cx.pow A noMath c0 cp), throws mde (Cx.pow A noMath c0 cn)] = true := by decide +kernel

def fmt : Dbl → List UInt8
  | .fin q => Frac.intText q.num
  | _ => []
def readC (t : List UInt8) : Res (Cx Dbl × IStream) := after (Cx.input 50) (c0, { buf := t })
def uninit : Res (Cx Dbl × IStream) → Bool
  | .ub .uninit => true
  | _ => false
def badC : String := "Error: Wrong complex literal."

-- print, input
example : all [
    Cx.print fmt c0 == b!"(0+0j)", Cx.print fmt cp == b!"(1+2j)", Cx.print fmt cn == b!"(-1+2j)",
    holds (do
      let (a, s) ← readC b!"  +1-2j  \n  233.33 \t -1234-4321j  3j"
      let (b, s) ← after (Cx.input 50) (a, s)
      let (c, s) ← after (Cx.input 50) (b, s)
      let (d, _) ← after (Cx.input 50) (c, s)
      pure (eqC a (C 1 (-2)) && eqC b (C (23333 / 100)) && eqC c (C (-1234) (-4321)) && eqC d (C 0 3))),
    throws badC (readC b!"z1+2j"), throws badC (readC b!"1+2zj"), throws badC (readC b!"123jj"),
    -- the tests expect the exception here too; they get it when the uninitialised `c` is not 'j'
    uninit (readC b!"1z+2j"), uninit (readC b!"1+z2j")] = true := by decide +kernel

end Pyincpp.Tests.Numbers
