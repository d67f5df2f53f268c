import Verif.Proof.OutOfMemory
import Verif.Spec.Set

/-! # C98: when memory runs out

Full statement: if memory runs out in the middle of a member that changes an object, `std::bad_alloc` is passed on and the object has the value it
had before (`Keeps`).

It holds for `-=`, for `+=`, `++` and `--` of an `Int` that is not zero, for `Set::add` and `Dict::add` and for the members that ask for all memory
before they change anything. It fails for `=`, `*=`, `/=` and `%=` of `Int`, for `+=`, `++` and `--` of zero, for `List::filter`, `extend`, and for
`Set::pop` and `Dict::pop`. For each of them the theorems say what is left. -/

namespace Pyincpp

open Oom

/-- The growth of a vector in libstdc++: to twice the size, or to what is asked for. -/
def doubling (c n : ℕ) : ℕ := max (2 * c) n

theorem grows_doubling : Grows doubling := fun _ n => le_max_right _ n

variable {grow : ℕ → ℕ → ℕ}

/-! ## Int -/

/-- **C98** `x -= y` returns with `x - y`, or leaves `x` as it was. -/
theorem C98_sub (hg : Grows grow) (x y : ℤ) {c : ℕ} (hc : (enc x).chunks.length ≤ c) :
    ∃ c', Runs ((NumOp.sub y).run grow) ⟨enc x, c⟩ () ⟨enc (x - y), c'⟩ (fun t => t = ⟨enc x, c⟩) := by
  obtain ⟨c', -, h⟩ := runs_sub hg x y 11 hc
  exact ⟨c', h⟩

example : (NumOp.sub 7).run doubling (⟨enc 5, 1⟩, 1) = (.ok (), (⟨enc (-2), 1⟩, 0)) ∧
    (NumOp.sub 7).run doubling (⟨enc 5, 1⟩, 0) = (.throw badAlloc, (⟨enc 5, 1⟩, 0)) := by decide +kernel

/-- **C98 (partial)** `x += y` returns with `x + y`, or leaves `x` as it was, if `x` is not zero. Zero is left with the sign of `y` and without digits,
which happens if its capacity is too small. -/
theorem C98_add_partial (hg : Grows grow) (x y : ℤ) {c : ℕ} (hc : (enc x).chunks.length ≤ c) :
    ∃ c', Runs ((NumOp.add y).run grow) ⟨enc x, c⟩ () ⟨enc (x + y), c'⟩
      (fun t => if x = 0 then t = ⟨⟨y.sign, []⟩, c⟩ ∧ c < (enc y).chunks.length else t = ⟨enc x, c⟩) := by
  obtain ⟨c', -, h⟩ := runs_add hg x y 11 hc
  exact ⟨c', h⟩

example : (NumOp.add 7).run doubling (⟨enc 5, 1⟩, 1) = (.ok (), (⟨enc 12, 2⟩, 0)) ∧
    (NumOp.add 7).run doubling (⟨enc 5, 1⟩, 0) = (.throw badAlloc, (⟨enc 5, 1⟩, 0)) := by decide +kernel

/-- **C98 (fails)** `Int x; x += -7;` without memory leaves an `Int` with sign `-1` and no digits. -/
theorem C98_add_not : (NumOp.add (-7)).run doubling (⟨enc 0, 0⟩, 0) = (.throw badAlloc, (⟨⟨-1, []⟩, 0⟩, 0)) := by decide +kernel

/-- **C98 (partial)** `++x` and `--x` leave an `x` that is not zero as it was. Zero is left with the sign of the result and without digits. -/
theorem C98_inc_dec_partial (hg : Grows grow) (x : ℤ) {c : ℕ} (hc : (enc x).chunks.length ≤ c) :
    (∃ c', Runs (NumOp.inc.run grow) ⟨enc x, c⟩ () ⟨enc (x + 1), c'⟩ (fun t => if x = 0 then t = ⟨⟨1, []⟩, c⟩ ∧ c = 0 else t = ⟨enc x, c⟩)) ∧
    (∃ c', Runs (NumOp.dec.run grow) ⟨enc x, c⟩ () ⟨enc (x - 1), c'⟩ (fun t => if x = 0 then t = ⟨⟨-1, []⟩, c⟩ ∧ c = 0 else t = ⟨enc x, c⟩)) := by
  obtain ⟨c1, -, h1⟩ := runs_inc hg x hc
  obtain ⟨c2, -, h2⟩ := runs_dec hg x hc
  exact ⟨⟨c1, h1⟩, ⟨c2, h2⟩⟩

example : NumOp.inc.run doubling (⟨enc 99, 2⟩, 0) = (.throw badAlloc, (⟨enc 99, 2⟩, 0)) ∧
    NumOp.inc.run doubling (⟨enc 99, 2⟩, 1) = (.ok (), (⟨enc 100, 4⟩, 0)) := by decide +kernel

/-- **C98 (fails)** `Int x; ++x;` without memory. What is left is neither zero nor printable, and asking whether it is even is undefined. -/
theorem C98_inc_not : NumOp.inc.run doubling (⟨enc 0, 0⟩, 0) = (.throw badAlloc, (⟨⟨1, []⟩, 0⟩, 0)) ∧
    BInt.isZero ⟨1, []⟩ = false ∧ BInt.isEven ⟨1, []⟩ = .ub .outOfBounds ∧ BInt.print ⟨1, []⟩ = .ub .badDeref ∧ ¬ InOrder ⟨⟨1, []⟩, 0⟩ := by
  refine ⟨by decide +kernel, rfl, rfl, rfl, ?_⟩
  rintro ⟨z, h, -⟩
  have h0 : z = 0 := by rw [← enc_nil_iff]; exact (congrArg BInt.chunks h).symm
  rw [h0, enc_zero] at h
  simp at h

/-- **C98 (partial)** `x = y` leaves the digits of `x` with the sign of `y`; it asks for memory exactly if the capacity of `x` is too small. -/
theorem C98_copy_partial (x y : ℤ) (c : ℕ) :
    Runs ((NumOp.copy y).run grow) ⟨enc x, c⟩ () ⟨enc y, max c (enc y).chunks.length⟩
      (fun t => t = ⟨⟨y.sign, (enc x).chunks⟩, c⟩ ∧ c < (enc y).chunks.length) :=
  runs_copyAssign (enc y) ⟨enc x, c⟩ _ fun h => ⟨rfl, h⟩

/-- **C98 (fails)** `x = 123` without memory turns `-5` into `5`. -/
theorem C98_copy_not : (NumOp.copy 123).run doubling (⟨enc (-5), 1⟩, 0) = (.throw badAlloc, (⟨enc 5, 1⟩, 0)) := by decide +kernel

/-- **C98 (partial)** `x *= y` leaves `x`, or `x` with the sign of the product. -/
theorem C98_mul_partial (x y : ℤ) (c : ℕ) :
    ∃ c', Runs ((NumOp.mul y).run grow) ⟨enc x, c⟩ () ⟨enc (x * y), c'⟩ (fun t => t = ⟨enc x, c⟩ ∨ t = ⟨enc (y.sign * x), c⟩) := by
  obtain ⟨c', -, h⟩ := runs_mul x y c
  exact ⟨c', h⟩

/-- **C98 (fails)** `x *= -40` turns `-3` into `3` if there is memory for the product but not for its copy. -/
theorem C98_mul_not : (NumOp.mul (-40)).run doubling (⟨enc (-3), 1⟩, 2) = (.throw badAlloc, (⟨enc 3, 1⟩, 0)) ∧
    (NumOp.mul (-40)).run doubling (⟨enc (-3), 1⟩, 3) = (.ok (), (⟨enc 120, 3⟩, 0)) := by decide +kernel

/-- **C98 (partial)** `x /= y` leaves `x`, or what was left to divide. -/
theorem C98_div_partial (x : ℤ) {y : ℤ} (hy : y ≠ 0) {c : ℕ} (hc : (enc x).chunks.length ≤ c) :
    ∃ c', Runs ((NumOp.div y).run grow) ⟨enc x, c⟩ () ⟨enc (x.tdiv y), c'⟩ (fun t => ∃ z, Unfinished x y z ∧ t = ⟨enc z, c⟩) := by
  obtain ⟨c', -, h⟩ := runs_div (grow := grow) (k := 13) (by norm_num) x hy hc
  exact ⟨c', h⟩

/-- **C98 (fails)** `x /= 7` can leave `23` of `-100`. -/
theorem C98_div_not : (NumOp.div 7).run doubling (⟨enc (-100), 3⟩, 5) = (.throw badAlloc, (⟨enc 23, 3⟩, 0)) ∧
    (NumOp.div 7).run doubling (⟨enc (-100), 3⟩, 8) = (.ok (), (⟨enc (-14), 3⟩, 0)) := by decide +kernel

/-- **C98 (partial)** `x %= y` leaves the absolute value of `x`, less a multiple of `y`: also where nothing was subtracted the sign is lost. -/
theorem C98_mod_partial (x : ℤ) {y : ℤ} (hy : y ≠ 0) {c : ℕ} (hc : (enc x).chunks.length ≤ c) :
    Runs ((NumOp.mod y).run grow) ⟨enc x, c⟩ () ⟨enc ((NumOp.mod y).result x), c⟩ (fun t => ∃ z, 0 ≤ z ∧ z ≤ |x| ∧ |y| ∣ |x| - z ∧ t = ⟨enc z, c⟩) :=
  (runs_mod (grow := grow) (k := 13) (by norm_num) x hy hc).2

/-- **C98 (fails)** `x %= 7` without memory turns `-100` into `100`, and with some memory into `23`. -/
theorem C98_mod_not : (NumOp.mod 7).run doubling (⟨enc (-100), 3⟩, 0) = (.throw badAlloc, (⟨enc 100, 3⟩, 0)) ∧
    (NumOp.mod 7).run doubling (⟨enc (-100), 3⟩, 4) = (.throw badAlloc, (⟨enc 23, 3⟩, 0)) := by decide +kernel

/-- **C98 (partial)** A bound for all of them. With memory enough the result is that of the model without memory, in order. Otherwise, unless the object
was zero and the member one that writes its sign first, an `Int` in order is left, and it is not larger than before. -/
theorem C98_int_partial (hg : Grows grow) (x : ℤ) {c : ℕ} (hc : (enc x).chunks.length ≤ c) (op : NumOp) (hv : op.Valid) (h0 : x ≠ 0 ∨ ¬ op.Early) :
    ∃ c', InOrder ⟨enc (op.result x), c'⟩ ∧
      Runs (op.run grow) ⟨enc x, c⟩ () ⟨enc (op.result x), c'⟩ (fun t => InOrder t ∧ ∃ z, |z| ≤ |x| ∧ t.val = enc z) := by
  have key : ∀ z, |z| ≤ |x| → (fun t => InOrder t ∧ ∃ z, |z| ≤ |x| ∧ t.val = enc z) (⟨enc z, c⟩ : Num) :=
    fun z hz => ⟨⟨z, rfl, (enc_len_le hz).trans hc⟩, z, hz, rfl⟩
  have hself := key x (le_refl _)
  cases op with
  | copy y =>
    refine ⟨_, ⟨y, rfl, le_max_right c _⟩, (C98_copy_partial x y c).mono ?_⟩
    rintro t ⟨rfl, hlt⟩
    have hx : x ≠ 0 := h0.resolve_right (by simp [NumOp.Early])
    have hy : y ≠ 0 := by
      rintro rfl
      simp [enc_zero] at hlt
    have e : (⟨y.sign, (enc x).chunks⟩ : BInt) = enc (y.sign * |x|) := by
      rw [enc_eta (y.sign * |x|), Int.sign_mul, Int.sign_sign, Int.sign_eq_one_of_pos (abs_pos.2 hx), mul_one, enc_chunks_pos (z := x)]
      congr 1
      rcases sign_cases hy with h | h <;> rw [h]
      · rw [one_mul]
      · rw [neg_one_mul, enc_neg_chunks]
    rw [e]
    apply key
    rw [abs_mul, abs_abs]
    rcases sign_cases hy with h | h <;> rw [h] <;> simp
  | add y =>
    obtain ⟨c', hl, h⟩ := runs_add hg x y 11 hc
    have hx : x ≠ 0 := h0.resolve_right (by simp [NumOp.Early])
    refine ⟨c', ⟨_, rfl, hl⟩, h.mono ?_⟩
    intro t ht
    rw [if_neg hx] at ht
    subst ht
    exact hself
  | sub y =>
    obtain ⟨c', hl, h⟩ := runs_sub hg x y 11 hc
    refine ⟨c', ⟨_, rfl, hl⟩, h.mono ?_⟩
    rintro t rfl
    exact hself
  | mul y =>
    obtain ⟨c', hl, h⟩ := runs_mul x y c
    refine ⟨c', ⟨_, rfl, hl⟩, h.mono ?_⟩
    rintro t (rfl | rfl)
    · exact hself
    · apply key
      rw [abs_mul]
      have : |y.sign| ≤ 1 := by
        by_cases hy : y = 0
        · simp [hy]
        · rcases sign_cases hy with h | h <;> rw [h] <;> simp
      nlinarith [abs_nonneg x]
  | div y =>
    obtain ⟨c', hl, h⟩ := runs_div (grow := grow) (k := 13) (by norm_num) x hv hc
    refine ⟨c', ⟨_, rfl, hl⟩, h.mono ?_⟩
    rintro t ⟨z, rfl | ⟨h1, h2, -⟩, rfl⟩
    · exact hself
    · exact key z (by rwa [abs_of_nonneg h1])
  | mod y =>
    obtain ⟨hl, h⟩ := runs_mod (grow := grow) (k := 13) (by norm_num) x hv hc
    refine ⟨c, ⟨_, rfl, hl⟩, h.mono ?_⟩
    rintro t ⟨z, h1, h2, -, rfl⟩
    exact key z (by rwa [abs_of_nonneg h1])
  | inc =>
    obtain ⟨c', hl, h⟩ := runs_inc hg x hc
    have hx : x ≠ 0 := h0.resolve_right (by simp [NumOp.Early])
    refine ⟨c', ⟨_, rfl, hl⟩, h.mono ?_⟩
    intro t ht
    rw [if_neg hx] at ht
    subst ht
    exact hself
  | dec =>
    obtain ⟨c', hl, h⟩ := runs_dec hg x hc
    have hx : x ≠ 0 := h0.resolve_right (by simp [NumOp.Early])
    refine ⟨c', ⟨_, rfl, hl⟩, h.mono ?_⟩
    intro t ht
    rw [if_neg hx] at ht
    subst ht
    exact hself

example : Grows doubling ∧ (enc (-100)).chunks.length ≤ 3 ∧ (NumOp.div 7).Valid ∧ ((-100 : ℤ) ≠ 0 ∨ ¬ (NumOp.div 7).Early) ∧
    (NumOp.div 7).result (-100) = -14 ∧ (NumOp.mod 7).result (-100) = 2 ∧ (NumOp.mod 70).result (-5) = -5 :=
  ⟨grows_doubling, by decide +kernel, by simp [NumOp.Valid], .inl (by norm_num), by decide +kernel, by decide +kernel, by decide +kernel⟩

/-! ## Containers -/

section
variable {α : Type}

/-- **C98** A member that asks for all the memory before it changes the object keeps its value. -/
theorem C98_commit {σ β : Type} {n : ℕ} {f : Meth σ β} {s t : σ} {r : β} (h : f s = (.ok r, t)) :
    Runs (commit n f) s r t (fun u => u = s) ∧ Keeps (commit n f) s := ⟨runs_commit h, (runs_commit h).keeps⟩

example : Lst.append 3 [1, 2] = (.ok (), [1, 2, 3]) := rfl
example : commit 1 (Lst.append 3) ([1, 2], 0) = (.throw badAlloc, ([1, 2], 0)) := rfl

/-- **C98 (partial)** `extend` from iterators that can be read only once leaves the list with the elements that were appended in time. -/
theorem C98_extend_partial (n : α → ℕ) (l xs : List α) : Runs (extendOnce n xs) l () (l ++ xs) (fun t => ∃ a x b, xs = a ++ x :: b ∧ t = l ++ a) :=
  runs_extendOnce n xs l

/-- **C98 (fails)** -/
theorem C98_extend_not : extendOnce (fun _ => 1) [3, 4] ([1, 2], 1) = (.throw badAlloc, ([1, 2, 3], 0)) := rfl

/-- **C98 (partial)** `filter` leaves the elements kept so far followed by the rest of the list; the length is that of the list before. -/
theorem C98_filter_partial (c : ℕ) (half : α → α → α) (p : α → Bool) (l : List α) :
    Runs (Oom.filter c half p) l () (l.filter p) (fun t => Filtering half p l t ∧ t.length = l.length) := by
  refine (runs_filter c half p l).mono fun t ht => ⟨ht, ?_⟩
  obtain ⟨a, x, b, old, rest, -, -, h3, h4, rfl⟩ := ht
  have h := congrArg List.length h3
  rw [List.length_drop, List.length_cons] at h
  rw [List.length_append, List.length_cons]
  omega

/-- **C98 (fails)** `List<Int>{1, -2, 34}` filtered for the numbers that are not negative. The third element was being written over the second one, which has
the sign of the one and the digits of the other. -/
theorem C98_filter_not :
    Oom.filter 1 (fun old x : BInt => ⟨x.sign, old.chunks⟩) (fun x => !x.isNegative) ([enc 1, enc (-2), enc 34], 0) = (.throw badAlloc, ([enc 1, enc 2, enc 34], 0)) := by
  decide +kernel

/-- **C98** `Set::add` keeps the set. -/
theorem C98_set_add (c : ℕ) {lt : α → α → Bool} {e : α} {s t : List α} {r : Bool} (h : PSet.add lt e s = (.ok r, t)) :
    Runs (setAdd c lt e) s r t (fun u => u = s) ∧ Keeps (setAdd c lt e) s := ⟨runs_setAdd c h, (runs_setAdd c h).keeps⟩

example : PSet.add (ltOf (α := ℕ)) 2 [1, 3] = (.ok true, [1, 2, 3]) := by decide +kernel
example : setAdd 1 (ltOf (α := ℕ)) 2 ([1, 3], 1) = (.throw badAlloc, ([1, 3], 0)) ∧ setAdd 1 (ltOf (α := ℕ)) 3 ([1, 3], 0) = (.ok false, ([1, 3], 0)) := by
  decide +kernel

/-- **C98 (partial)** `extend` of a set or dictionary leaves it with the elements that were inserted in time. -/
theorem C98_set_extend_partial (c : ℕ) (lt : α → α → Bool) (xs s : List α) :
    Runs (treeExtend c lt xs) s () (Tree.insertAll lt xs s) (fun t => ∃ a x b, xs = a ++ x :: b ∧ t = Tree.insertAll lt a s) := runs_treeExtend c lt xs s

/-- **C98 (fails)** -/
theorem C98_set_extend_not : treeExtend 0 (ltOf (α := ℕ)) [2, 9] ([5], 1) = (.throw badAlloc, ([2, 5], 0)) := by decide +kernel

/-- **C98 (partial)** `Set::pop` leaves the set without the element, which nobody got. -/
theorem C98_set_pop_partial (c : ℕ) {s t : List α} {x : α} (h : PSet.pop s = (.ok x, t)) : Runs (setPop c) s x t (fun u => u = t) := runs_setPop c h

example : PSet.pop [1, 3] = (.ok 1, [3]) := by decide +kernel

/-- **C98 (fails)** -/
theorem C98_set_pop_not : setPop 1 ([1, 3], 0) = (.throw badAlloc, ([3], 0)) ∧ ¬ Keeps (setPop 1) [1, 3] := by
  refine ⟨by decide +kernel, fun h => ?_⟩
  have := h 0 [3] 0 (by decide +kernel)
  simp at this

end

section
variable {K V : Type}

/-- **C98** `Dict::add` keeps the dictionary. -/
theorem C98_dict_add (c ck : ℕ) {lt : K → K → Bool} {k : K} {v : V} {d t : List (K × V)} {r : Bool} (h : PDict.add lt k v d = (.ok r, t)) :
    Runs (dictAdd c ck lt k v) d r t (fun u => u = d) ∧ Keeps (dictAdd c ck lt k v) d := ⟨runs_dictAdd c ck h, (runs_dictAdd c ck h).keeps⟩

example : PDict.add (ltOf (α := ℕ)) 2 'b' [(1, 'a')] = (.ok true, [(1, 'a'), (2, 'b')]) := by decide +kernel
example : dictAdd 2 1 (ltOf (α := ℕ)) 1 'b' ([(1, 'a')], 1) = (.throw badAlloc, ([(1, 'a')], 0)) ∧
    dictAdd 2 1 (ltOf (α := ℕ)) 1 'b' ([(1, 'a')], 2) = (.ok false, ([(1, 'a')], 0)) ∧
    dictAdd 2 1 (ltOf (α := ℕ)) 2 'b' ([(1, 'a')], 3) = (.throw badAlloc, ([(1, 'a')], 0)) := by decide +kernel

/-- **C98 (partial)** `Dict::pop` leaves the dictionary without the entry, which nobody got. -/
theorem C98_dict_pop_partial (c : ℕ) {d t : List (K × V)} {x : K × V} (h : PDict.pop d = (.ok x, t)) : Runs (dictPop c) d x t (fun u => u = t) :=
  runs_dictPop c h

example : PDict.pop [(1, 'a'), (2, 'b')] = (.ok (1, 'a'), [(2, 'b')]) := by decide +kernel

/-- **C98 (fails)** -/
theorem C98_dict_pop_not : dictPop 2 ([(1, 'a'), (2, 'b')], 1) = (.throw badAlloc, ([(2, 'b')], 0)) := by decide +kernel

end

end Pyincpp
