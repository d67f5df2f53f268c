/-!
# The C++ machine: outcomes, `int` arithmetic, vector access, loops

Nothing here is specific to pyincpp; it fixes how C++ behaviour is represented.
-/

namespace Pyincpp

/-- Kinds of undefined behaviour that the model distinguishes. -/
inductive UB
  | outOfBounds   -- element access outside a vector / string
  | overflow      -- signed integer overflow, or a conversion that has no defined value
  | badRange      -- iterator range / pointer arithmetic outside the object, or first > last
  | badDeref      -- dereferencing an end iterator
  | uninit        -- using the value of an uninitialised variable
  | constWrite    -- modifying an object that was declared const
  deriving DecidableEq, Repr

/-- The outcome of a C++ call: it returns, throws `std::runtime_error(msg)`, has undefined behaviour, or
has not finished within the given number of loop steps. -/
inductive Res (α : Type) : Type
  | ok (a : α)
  | throw (msg : String)
  | ub (k : UB)
  | fuel
  deriving DecidableEq, Repr

namespace Res

@[inline] protected def bind {α β : Type} : Res α → (α → Res β) → Res β
  | ok a, f => f a
  | throw m, _ => throw m
  | ub k, _ => ub k
  | fuel, _ => fuel

instance : Monad Res where
  pure := ok
  bind := Res.bind

@[simp] theorem pure_eq {α : Type} (a : α) : (pure a : Res α) = ok a := (rfl)
@[simp] theorem ok_bind {α β : Type} (a : α) (f : α → Res β) : (ok a >>= f) = f a := (rfl)
@[simp] theorem throw_bind {α β : Type} (m : String) (f : α → Res β) : (throw m >>= f) = throw m := (rfl)
@[simp] theorem ub_bind {α β : Type} (k : UB) (f : α → Res β) : (ub k >>= f) = ub k := (rfl)
@[simp] theorem fuel_bind {α β : Type} (f : α → Res β) : ((fuel : Res α) >>= f) = fuel := (rfl)
@[simp] theorem map_ok {α β : Type} (f : α → β) (a : α) : (f <$> (ok a : Res α)) = ok (f a) := (rfl)

instance : LawfulMonad Res := LawfulMonad.mk'
  (id_map := by intro α x; cases x <;> rfl)
  (pure_bind := by intros; rfl)
  (bind_assoc := by intro α β γ x f g; cases x <;> rfl)

/-- The call returned normally. -/
def isOk {α : Type} : Res α → Bool
  | ok _ => true
  | _ => false

/-- The call had undefined behaviour. -/
def isUB {α : Type} : Res α → Bool
  | ub _ => true
  | _ => false

theorem bind_eq_ok {α β : Type} {x : Res α} {f : α → Res β} {b : β} :
    (x >>= f) = ok b ↔ ∃ a, x = ok a ∧ f a = ok b := by
  cases x <;> simp [bind, Res.bind]

end Res

/-! ## What a caller observes -/

/-- The call terminates and returns `v`. -/
def Returns {α : Type} (f : Nat → Res α) (v : α) : Prop := ∃ N, ∀ k, N ≤ k → f k = .ok v
/-- The call terminates by throwing `std::runtime_error(msg)`. -/
def Throws {α : Type} (f : Nat → Res α) (msg : String) : Prop := ∃ N, ∀ k, N ≤ k → f k = .throw msg
/-- The call runs into undefined behaviour of kind `u`. -/
def HitsUB {α : Type} (f : Nat → Res α) (u : UB) : Prop := ∃ N, ∀ k, N ≤ k → f k = .ub u
/-- The call never finishes: however large the budget of loop steps, it is not enough. -/
def Diverges {α : Type} (f : Nat → Res α) : Prop := ∃ N, ∀ k, N ≤ k → f k = .fuel

/-- The four observations exclude each other and a returned value is unique. -/
theorem Returns.unique {α : Type} {f : Nat → Res α} {v w : α} (h : Returns f v) (h' : Returns f w) : v = w := by
  obtain ⟨N, h⟩ := h; obtain ⟨N', h'⟩ := h'
  have a := h (max N N') (Nat.le_max_left ..); have b := h' (max N N') (Nat.le_max_right ..)
  rw [a] at b; exact Res.ok.inj b

theorem Returns.not_diverges {α : Type} {f : Nat → Res α} {v : α} (h : Returns f v) : ¬ Diverges f := by
  rintro ⟨N', h'⟩; obtain ⟨N, h⟩ := h
  have a := h (max N N') (Nat.le_max_left ..); have b := h' (max N N') (Nat.le_max_right ..)
  rw [a] at b; cases b

theorem Returns.not_ub {α : Type} {f : Nat → Res α} {v : α} {u : UB} (h : Returns f v) : ¬ HitsUB f u := by
  rintro ⟨N', h'⟩; obtain ⟨N, h⟩ := h
  have a := h (max N N') (Nat.le_max_left ..); have b := h' (max N N') (Nat.le_max_right ..)
  rw [a] at b; cases b

theorem Returns.not_throws {α : Type} {f : Nat → Res α} {v : α} {m : String} (h : Returns f v) : ¬ Throws f m := by
  rintro ⟨N', h'⟩; obtain ⟨N, h⟩ := h
  have a := h (max N N') (Nat.le_max_left ..); have b := h' (max N N') (Nat.le_max_right ..)
  rw [a] at b; cases b

/-! ## 32-bit `int` -/

def INT_MAX : Int := 2147483647
def INT_MIN : Int := -2147483648

/-- `x` is a value of type `int`. -/
def IsInt (x : Int) : Prop := INT_MIN ≤ x ∧ x ≤ INT_MAX

instance (x : Int) : Decidable (IsInt x) := by unfold IsInt; infer_instance

/-- The result of a signed `int` operation: undefined if it does not fit. -/
def ck (x : Int) : Res Int := if IsInt x then .ok x else .ub .overflow

def iadd (a b : Int) : Res Int := ck (a + b)
def isub (a b : Int) : Res Int := ck (a - b)
def imul (a b : Int) : Res Int := ck (a * b)
def ineg (a : Int) : Res Int := ck (-a)
/-- `std::abs(int)`: undefined for `INT_MIN`. -/
def iabs (a : Int) : Res Int := ck (if a < 0 then -a else a)
/-- `/` on `int`: truncating; undefined for divisor 0 and for `INT_MIN / -1`. -/
def idiv (a b : Int) : Res Int := if b = 0 then .ub .overflow else ck (a.tdiv b)
/-- `%` on `int`: sign of the dividend; undefined for divisor 0 and for `INT_MIN % -1`. -/
def imod (a b : Int) : Res Int :=
  if b = 0 then .ub .overflow else if IsInt (a.tdiv b) then .ok (a.tmod b) else .ub .overflow

/-- Conversion to `int` (modulo 2^32, C++20). Used for `int size() { return vector_.size(); }`. -/
def wrap32 (x : Int) : Int := (x + 2147483648) % 4294967296 - 2147483648

theorem ck_ok {x : Int} (h : IsInt x) : ck x = .ok x := by simp [ck, h]
theorem ck_ub {x : Int} (h : ¬ IsInt x) : ck x = .ub .overflow := by simp [ck, h]

theorem wrap32_eq {x : Int} (h : IsInt x) : wrap32 x = x := by
  unfold wrap32; unfold IsInt INT_MIN INT_MAX at h; omega

theorem wrap32_isInt (x : Int) : IsInt (wrap32 x) := by
  unfold wrap32 IsInt INT_MIN INT_MAX; omega

/-! ## `std::vector` element access -/

/-- How an access to the element directly behind the last one is treated. `strict`: undefined, as the C++
standard says. `lenient`: what real allocators do with `v[v.size()] += 0` – nothing happens. -/
inductive Mem | strict | lenient
  deriving DecidableEq, Repr

/-- Read `v[i]`. -/
def vget {α : Type} (v : List α) (i : Nat) : Res α :=
  match v[i]? with
  | some x => .ok x
  | none => .ub .outOfBounds

/-- Write `v[i] = x`. -/
def vset {α : Type} (v : List α) (i : Nat) (x : α) : Res (List α) :=
  if i < v.length then .ok (v.set i x) else .ub .outOfBounds

/-- `v[i] += d`. In `lenient` mode only, adding 0 to the cell directly behind the vector is harmless. -/
def vaddAt (mem : Mem) (v : List Int) (i : Nat) (d : Int) : Res (List Int) :=
  if i = v.length ∧ d = 0 ∧ mem = .lenient then .ok v
  else do
    let x ← vget v i
    vset v i (← iadd x d)

/-- `v.resize(n)` for a vector of `int` (new elements are 0). -/
def vresize (v : List Int) (n : Nat) : List Int := v.take n ++ List.replicate (n - v.length) 0

theorem vget_ok {α : Type} {v : List α} {i : Nat} (h : i < v.length) : vget v i = .ok v[i] := by
  simp [vget, List.getElem?_eq_getElem h]

theorem vget_ub {α : Type} {v : List α} {i : Nat} (h : v.length ≤ i) : vget v i = .ub .outOfBounds := by
  simp [vget, List.getElem?_eq_none h]

theorem vset_ok {α : Type} {v : List α} {i : Nat} {x : α} (h : i < v.length) : vset v i x = .ok (v.set i x) := by
  simp [vset, h]

/-! ## Loops -/

/-- `for (int j = i; j < i + n; ++j) s = body(j, s);` -/
def forUp {σ : Type} (body : Nat → σ → Res σ) : (i n : Nat) → σ → Res σ
  | _, 0, s => .ok s
  | i, n + 1, s => do forUp body (i + 1) n (← body i s)

/-- `for (int j = lo; j < hi; ++j) s = body(j, s);` -/
def forRange {σ : Type} (lo hi : Nat) (body : Nat → σ → Res σ) (s : σ) : Res σ := forUp body lo (hi - lo) s

/-- `for (int j = n - 1; j >= 0; --j) s = body(j, s);` -/
def forDown {σ : Type} (body : Nat → σ → Res σ) : (n : Nat) → σ → Res σ
  | 0, s => .ok s
  | n + 1, s => do forDown body n (← body n s)

/-- `for (int j = i; j < i + n && cond(j, s); ++j) s = body(j, s);` -/
def forUpWhile {σ : Type} (cond : Nat → σ → Res Bool) (body : Nat → σ → Res σ) : (i n : Nat) → σ → Res σ
  | _, 0, s => .ok s
  | i, n + 1, s => do
    if ← cond i s then forUpWhile cond body (i + 1) n (← body i s) else pure s

/-- `while (cond(s)) s = body(s);` with a bound on the number of steps. -/
def whileF {σ : Type} (cond : σ → Res Bool) (body : σ → Res σ) : Nat → σ → Res σ
  | 0, _ => .fuel
  | k + 1, s => do
    if ← cond s then whileF cond body k (← body s) else pure s

/-! ## Mutating methods

A method of a class with state `σ`: if it throws, the state keeps what was written before the throw. -/

def Meth (σ α : Type) : Type := σ → Res α × σ

namespace Meth

@[inline] protected def bind {σ α β : Type} (x : Meth σ α) (f : α → Meth σ β) : Meth σ β := fun s =>
  match x s with
  | (.ok a, s') => f a s'
  | (.throw m, s') => (.throw m, s')
  | (.ub k, s') => (.ub k, s')
  | (.fuel, s') => (.fuel, s')

instance {σ : Type} : Monad (Meth σ) where
  pure a := fun s => (.ok a, s)
  bind := Meth.bind

/-- Run a computation that does not touch the object. -/
def lift {σ α : Type} (r : Res α) : Meth σ α := fun s => (r, s)
/-- Read the object. -/
def get {σ : Type} : Meth σ σ := fun s => (.ok s, s)
/-- Overwrite the object. -/
def set {σ : Type} (s : σ) : Meth σ Unit := fun _ => (.ok (), s)

@[simp] theorem pure_run {σ α : Type} (a : α) (s : σ) : (pure a : Meth σ α) s = (.ok a, s) := (rfl)
@[simp] theorem get_bind {σ α : Type} (f : σ → Meth σ α) (s : σ) : (Meth.get >>= f) s = f s s := (rfl)
@[simp] theorem set_bind {σ α : Type} (t : σ) (f : Unit → Meth σ α) (s : σ) : (Meth.set t >>= f) s = f () t := (rfl)
@[simp] theorem set_run {σ : Type} (t s : σ) : (Meth.set t) s = (.ok (), t) := (rfl)
@[simp] theorem get_run {σ : Type} (s : σ) : (Meth.get : Meth σ σ) s = (.ok s, s) := (rfl)
@[simp] theorem lift_run {σ α : Type} (r : Res α) (s : σ) : (Meth.lift r : Meth σ α) s = (r, s) := (rfl)
@[simp] theorem lift_ok_bind {σ α β : Type} (a : α) (f : α → Meth σ β) (s : σ) :
    (Meth.lift (.ok a) >>= f) s = f a s := (rfl)
@[simp] theorem lift_throw_bind {σ α β : Type} (m : String) (f : α → Meth σ β) (s : σ) :
    (Meth.lift (.throw m) >>= f) s = (.throw m, s) := (rfl)
@[simp] theorem lift_ub_bind {σ α β : Type} (k : UB) (f : α → Meth σ β) (s : σ) :
    (Meth.lift (.ub k) >>= f) s = (.ub k, s) := (rfl)
@[simp] theorem lift_fuel_bind {σ α β : Type} (f : α → Meth σ β) (s : σ) :
    (Meth.lift (.fuel) >>= f) s = (.fuel, s) := (rfl)
@[simp] theorem pure_bind {σ α β : Type} (a : α) (f : α → Meth σ β) (s : σ) :
    ((pure a : Meth σ α) >>= f) s = f a s := (rfl)

end Meth

end Pyincpp
