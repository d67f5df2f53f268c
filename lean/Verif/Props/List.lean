import Verif.Proof.ListMore

/-! # Properties of `List` (C28, C29, C32–C34, C36–C41; C61 is in `Props/NoEffect`)

Hypotheses such as `l.length ≤ maxLen` say that the list has at most `INT_MAX` elements. -/

namespace Pyincpp
open Lst

variable {α : Type}

/-! ## C33 Element access -/

/-- C33. -/
theorem C33_list_index (l : List α) (hl : l.length ≤ maxLen) (i : Int) :
    (0 ≤ i ∧ i < l.length → ∃ x, l[i.toNat]? = some x ∧ Lst.get l i = .ok x) ∧
    (-(l.length : Int) ≤ i ∧ i < 0 → ∃ x, l[(l.length + i).toNat]? = some x ∧ Lst.get l i = .ok x) ∧
    (i < -(l.length : Int) ∨ (l.length : Int) ≤ i → Lst.get l i = .throw "Error: Index out of range.") := by
  refine ⟨fun h => ?_, fun h => ?_, fun h => ?_⟩
  · exact get_some hl (pyIndex_nonneg h.1 h.2)
  · rw [Int.add_comm]; exact get_some hl (pyIndex_neg h.1 h.2)
  · exact get_none hl (pyIndex_none (by omega))

example : Lst.get [10, 20, 30] (-1) = .ok 30 ∧ Lst.get [10, 20, 30] 3 = .throw msgIndex := by decide +kernel

/-! ## C28 Slices -/

/-- C28, wherever `i += step` stays in the range of `int`. `s` and `t` are the converted indices. -/
theorem C28_list_slice_partial (l : List α) (hl : l.length < maxLen) (start stop step : Int) (hstep : step ≠ 0)
    (hint : IsInt step) (h1 : -(l.length : Int) ≤ start) (h2 : start < l.length) (h3 : -(l.length : Int) - 1 ≤ stop)
    (h4 : stop ≤ l.length) (s t : Int) (hs : s = if start < 0 then start + l.length else start)
    (ht : t = if stop < 0 then stop + l.length else stop)
    (hno : ∀ j : Nat, Before step (s + j * step) t → s + (j + 1) * step ≤ INT_MAX) :
    ∃ r, IsSlice l s t step r ∧ Returns (fun k => Lst.slice k l start stop step) r := by
  have hs' : 0 ≤ s ∧ s < l.length := by rw [hs]; split <;> omega
  have ht' : -1 ≤ t ∧ t ≤ l.length := by rw [ht]; split <;> omega
  obtain ⟨n, hb, hnb⟩ := exists_rounds s t step
  have hin : ∀ j : Nat, Before step (s + j * step) t → 0 ≤ s + j * step ∧ s + j * step < l.length :=
    fun j h => slice_inside hs'.1 hs'.2 ht'.1 ht'.2 h
  have hov : n = 0 ∨ IsInt (s + n * step) := by
    rcases Nat.eq_zero_or_pos n with h0 | h0
    · exact Or.inl h0
    · right
      have hbn := hb (n - 1) (by omega)
      have := hno (n - 1) hbn
      obtain ⟨c1, c2⟩ := hin (n - 1) hbn
      obtain ⟨m, rfl⟩ : ∃ m, n = m + 1 := ⟨n - 1, by omega⟩
      simp only [Nat.add_sub_cancel] at this c1 c2
      push_cast
      have e : s + (m : Int) * step + step = s + ((m : Int) + 1) * step := by ring
      rw [isInt_iff] at *
      unfold INT_MAX at this
      omega
  obtain ⟨r, _, er2, er3⟩ := sliceLoop_ok l t step n (n + 1) s [] (fun j hj => ⟨hb j hj, hin j (hb j hj)⟩) (hnb n (Nat.le_refl n))
    (by omega) (by omega) hstep hov
  refine ⟨r, ?_, n + 1, fun k hk => ?_⟩
  · intro j
    refine ⟨hin j, ?_⟩
    by_cases hj : j < n
    · rw [if_pos (hb j hj)]; exact er3 j hj
    · rw [if_neg (hnb j (by omega))]; exact List.getElem?_eq_none (by omega)
  · beta_reduce
    rw [slice_args k hl hstep h1 h2 h3 h4, ← hs, ← ht]
    obtain ⟨r', e1, e2, e3⟩ := sliceLoop_ok l t step n k s [] (fun j hj => ⟨hb j hj, hin j (hb j hj)⟩)
      (hnb n (Nat.le_refl n)) (by omega) (by omega) hstep hov
    rw [e1, List.nil_append]
    congr 1
    apply List.ext_getElem?
    intro j
    by_cases hj : j < n
    · rw [er3 j hj, e3 j hj]
    · rw [List.getElem?_eq_none (by omega), List.getElem?_eq_none (by omega)]

/-- C28 holds in particular for every negative step and for every step up to `INT_MAX - size`. -/
theorem C28_list_slice_small_partial (l : List α) (hl : l.length < maxLen) (start stop step : Int) (hstep : step ≠ 0)
    (hint : IsInt step) (hsmall : step ≤ INT_MAX - l.length) (h1 : -(l.length : Int) ≤ start) (h2 : start < l.length)
    (h3 : -(l.length : Int) - 1 ≤ stop) (h4 : stop ≤ l.length) :
    ∃ r, IsSlice l (if start < 0 then start + l.length else start) (if stop < 0 then stop + l.length else stop) step r ∧
      Returns (fun k => Lst.slice k l start stop step) r := by
  apply C28_list_slice_partial l hl start stop step hstep hint h1 h2 h3 h4 _ _ rfl rfl
  intro j hb
  have hs' : 0 ≤ (if start < 0 then start + l.length else start) ∧ (if start < 0 then start + l.length else start) < l.length := by
    split <;> omega
  have ht' : -1 ≤ (if stop < 0 then stop + (l.length : Int) else stop) ∧ (if stop < 0 then stop + (l.length : Int) else stop) ≤ l.length := by
    split <;> omega
  obtain ⟨c1, c2⟩ := slice_inside hs'.1 hs'.2 ht'.1 ht'.2 hb
  generalize (if start < 0 then start + (l.length : Int) else start) = s at *
  rw [show s + ((j : Int) + 1) * step = s + j * step + step by ring]
  omega

/-- An index out of range or a zero step throws. -/
theorem C28_list_slice_throws (k : Nat) (l : List α) (hl : l.length < maxLen) (start stop step : Int) :
    (step = 0 → Lst.slice k l start stop step = .throw "Error: Slice step can not be zero.") ∧
    (step ≠ 0 → ¬ (-(l.length : Int) ≤ start ∧ start < l.length ∧ -(l.length : Int) - 1 ≤ stop ∧ stop ≤ l.length) →
      Lst.slice k l start stop step = .throw "Error: Index out of range.") := by
  constructor
  · rintro rfl; simp [slice]
  · intro h1 h2; exact slice_throw k hl h1 h2

/-- The remaining case: the loop counter overflows, which is undefined behaviour. -/
theorem C28_list_slice_overflow (l : List α) (hl : l.length < maxLen) (start stop step : Int) (hstep : step ≠ 0)
    (h1 : -(l.length : Int) ≤ start) (h2 : start < l.length) (h3 : -(l.length : Int) - 1 ≤ stop)
    (h4 : stop ≤ l.length) (s t : Int) (hs : s = if start < 0 then start + l.length else start)
    (ht : t = if stop < 0 then stop + l.length else stop)
    (hov : ∃ j : Nat, Before step (s + j * step) t ∧ INT_MAX < s + (j + 1) * step) :
    HitsUB (fun k => Lst.slice k l start stop step) .overflow := by
  have hs' : 0 ≤ s ∧ s < l.length := by rw [hs]; split <;> omega
  have ht' : -1 ≤ t ∧ t ≤ l.length := by rw [ht]; split <;> omega
  obtain ⟨n, hb, hnb⟩ := exists_rounds s t step
  have hin : ∀ j : Nat, Before step (s + j * step) t → 0 ≤ s + j * step ∧ s + j * step < l.length :=
    fun j h => slice_inside hs'.1 hs'.2 ht'.1 ht'.2 h
  obtain ⟨j, hj, hbig⟩ := hov
  have hjn : j < n := by
    by_contra h; exact hnb j (by omega) hj
  have hjn' : n = j + 1 := by
    by_contra h
    obtain ⟨c1, c2⟩ := hin (j + 1) (hb (j + 1) (by omega))
    push_cast at c2
    unfold INT_MAX at hbig; unfold maxLen at hl
    omega
  refine ⟨n + 1, fun k hk => ?_⟩
  beta_reduce
  rw [slice_args k hl hstep h1 h2 h3 h4, ← hs, ← ht]
  apply sliceLoop_ub l t step n k s [] (fun j hj => ⟨hb j hj, hin j (hb j hj)⟩) (by omega) (by omega) (by omega) hstep
  rw [hjn', isInt_iff]; push_cast; unfold INT_MAX at hbig; omega

/-- C28 is false of the code as stated: `{1, 2}.slice(1, 2, INT_MAX)` is undefined behaviour. -/
theorem C28_list_slice_not : HitsUB (fun k => Lst.slice k [1, 2] 1 2 INT_MAX) .overflow := by
  apply C28_list_slice_overflow [1, 2] (by simp [maxLen]) 1 2 INT_MAX (by decide) (by simp) (by simp) (by simp)
    (by simp) 1 2 (by simp) (by simp)
  exact ⟨0, by unfold Before INT_MAX; simp, by unfold INT_MAX; simp⟩

/-- So is a slice of a list of `INT_MAX` elements (`size() + 1` overflows). -/
theorem C28_list_slice_max (k : Nat) (l : List α) (hl : l.length = maxLen) (start stop step : Int) (hstep : step ≠ 0)
    (h1 : -(l.length : Int) ≤ start) (h2 : start < l.length) :
    Lst.slice k l start stop step = .ub .overflow := by
  unfold slice
  rw [if_neg hstep, size_eq (by omega)]
  unfold maxLen at hl
  rw [ineg_ok (by rw [isInt_iff]; omega), Res.ok_bind, checkBounds_ok ⟨h1, h2⟩, Res.ok_bind,
    isub_ok (by rw [isInt_iff]; omega), Res.ok_bind, iadd, ck_ub (by rw [isInt_iff]; omega), Res.ub_bind]

example : Lst.slice 10 [0, 1, 2, 3, 4, 5] 1 6 2 = .ok [1, 3, 5] := by decide +kernel
example : Lst.slice 10 [0, 1, 2, 3, 4, 5] (-1) (-7) (-2) = .ok [5, 3, 1] := by decide +kernel

/-! ## C29 Rotation -/

theorem rotated_length (l : List α) (n : Int) : (rotated l n).length = l.length := by simp [rotated]

theorem rotated_get (l : List α) (n : Int) (i : Nat) (hi : i < l.length) :
    (rotated l n)[i]? = l[(((i : Int) + n) % l.length).toNat]? := by
  unfold rotated
  rw [List.getElem?_rotate hi]
  congr 1
  have h1 := Int.emod_nonneg n (by omega : (l.length : Int) ≠ 0)
  have h2 : (((i + (n % (l.length : Int)).toNat) % l.length : Nat) : Int) = ((i : Int) + n) % l.length := by
    push_cast
    rw [Int.toNat_of_nonneg h1, Int.add_emod_emod]
  omega

theorem rotated_rotated (l : List α) (m n : Int) : rotated (rotated l m) n = rotated l (m + n) := by
  apply List.ext_getElem?
  intro i
  by_cases hi : i < l.length
  · rw [rotated_get _ _ _ (by rw [rotated_length]; exact hi), rotated_length, rotated_get l (m + n) i hi]
    have h1 := Int.emod_nonneg ((i : Int) + n) (by omega : (l.length : Int) ≠ 0)
    have h2 := Int.emod_lt_of_pos ((i : Int) + n) (by omega : (0 : Int) < l.length)
    rw [rotated_get l m _ (by omega), Int.toNat_of_nonneg h1, Int.emod_add_emod]
    congr 3
    ring
  · rw [List.getElem?_eq_none (by rw [rotated_length, rotated_length]; omega),
      List.getElem?_eq_none (by rw [rotated_length]; omega)]

theorem rotated_zero (l : List α) : rotated l 0 = l := by simp [rotated]

/-- C29 for `<<=`: the element at position `(i + n) mod size` moves to position `i`, for every `int n`. -/
theorem C29_list_rotate_left (l : List α) (hl : l.length ≤ maxLen) (n : Int) (hn : IsInt n) :
    ∃ r, Lst.rotL n l = (.ok (), r) ∧ r.length = l.length ∧
      ∀ i : Nat, i < l.length → r[i]? = l[(((i : Int) + n) % l.length).toNat]? :=
  ⟨rotated l n, rotL_run hl hn, rotated_length l n, fun i hi => rotated_get l n i hi⟩

/-- C29 for `>>=`, which fails for the single value `INT_MIN`. -/
theorem C29_list_rotate_right_partial (l : List α) (hl : l.length ≤ maxLen) (n : Int) (hn : IsInt n) (hm : n ≠ INT_MIN) :
    ∃ r, Lst.rotR n l = (.ok (), r) ∧ r.length = l.length ∧
      ∀ i : Nat, i < l.length → r[i]? = l[(((i : Int) - n) % l.length).toNat]? :=
  ⟨rotated l (-n), rotR_run hl hn (Or.inl hm), rotated_length l _, fun i hi => rotated_get l (-n) i hi⟩

/-- C29 is false of the code for `>>= INT_MIN` on a list of two or more elements: `-n` overflows. -/
theorem C29_list_rotate_right_not (l : List α) (hl : l.length ≤ maxLen) (h2 : 2 ≤ l.length) :
    Lst.rotR INT_MIN l = (.ub .overflow, l) := rotR_min hl h2

/-- C29: right rotation by `n` is left rotation by `-n`. -/
theorem C29_list_right_left_partial (l : List α) (hl : l.length ≤ maxLen) (n : Int) (hn : IsInt n) (hm : n ≠ INT_MIN) :
    Lst.rotR n l = Lst.rotL (-n) l := by
  rw [rotR_run hl hn (Or.inl hm), rotL_run hl (by rw [isInt_iff] at *; unfold INT_MIN at hm; omega)]

/-- C29: rotations add up. -/
theorem C29_list_compose (l : List α) (hl : l.length ≤ maxLen) (m n : Int) (hm : IsInt m) (hn : IsInt n)
    (hmn : IsInt (m + n)) :
    (do Lst.rotL m; Lst.rotL n : Meth (List α) Unit) l = Lst.rotL (m + n) l := by
  have : (do Lst.rotL m; Lst.rotL n : Meth (List α) Unit) l = Lst.rotL n (rotated l m) := Meth.run_ok (rotL_run hl hm)
  rw [this, rotL_run (by rw [rotated_length]; exact hl) hn, rotL_run hl hmn, rotated_rotated]

/-- C29: left then right by the same amount restores the list. -/
theorem C29_list_restore_partial (l : List α) (hl : l.length ≤ maxLen) (n : Int) (hn : IsInt n) (hm : n ≠ INT_MIN) :
    (do Lst.rotL n; Lst.rotR n : Meth (List α) Unit) l = (.ok (), l) := by
  have : (do Lst.rotL n; Lst.rotR n : Meth (List α) Unit) l = Lst.rotR n (rotated l n) := Meth.run_ok (rotL_run hl hn)
  rw [this, rotR_run (by rw [rotated_length]; exact hl) hn (Or.inl hm), rotated_rotated,
    show n + -n = 0 by ring, rotated_zero]

example : Lst.rotL 2 [1, 2, 3, 4, 5] = (.ok (), [3, 4, 5, 1, 2]) := by decide +kernel
example : Lst.rotR 7 [1, 2, 3, 4, 5] = (.ok (), [4, 5, 1, 2, 3]) := by decide +kernel
example : (4 : Nat) ≤ maxLen ∧ IsInt (-3) ∧ (-3 : Int) ≠ INT_MIN := by
  rw [isInt_iff]; unfold maxLen INT_MIN; omega

/-! ## C32 Erasing a range -/

/-- C32 for `start <= stop`. -/
theorem C32_list_erase_partial (l : List α) (hl : l.length < maxLen) (start stop : Int) :
    (0 ≤ start ∧ start ≤ stop ∧ stop ≤ l.length →
      Lst.erase start stop l = (.ok (), l.take start.toNat ++ l.drop stop.toNat)) ∧
    (¬ (0 ≤ start ∧ start ≤ l.length ∧ 0 ≤ stop ∧ stop ≤ l.length) →
      Lst.erase start stop l = (.throw "Error: Index out of range.", l)) :=
  ⟨fun h => erase_ok hl h.1 h.2.1 h.2.2, fun h => erase_throw hl h⟩

/-- C32 is false of the code: with `0 <= stop < start <= size` the call is undefined behaviour; so is any call on a list
of `INT_MAX` elements. -/
theorem C32_list_erase_not (l : List α) (start stop : Int) :
    (l.length < maxLen → 0 ≤ stop → stop < start → start ≤ l.length → Lst.erase start stop l = (.ub .badRange, l)) ∧
    (l.length = maxLen → Lst.erase start stop l = (.ub .overflow, l)) :=
  ⟨fun h1 h2 h3 h4 => erase_backwards h1 h2 h3 h4, fun h => erase_max h⟩

example : Lst.erase 1 3 [1, 2, 3, 4] = (.ok (), [1, 4]) := by decide +kernel
example : Lst.erase 3 1 [1, 2, 3, 4] = (.ub .badRange, [1, 2, 3, 4]) := by decide +kernel

/-! ## C34 Repetition -/

/-- C34 where the result has fewer than `INT_MAX` elements, and for negative counts. -/
theorem C34_list_repeat_partial [Inhabited α] (l : List α) (hl : l.length ≤ maxLen) (n : Int) :
    (0 ≤ n → l.length * n < INT_MAX → Lst.mul l n = .ok (List.replicate n.toNat l).flatten ∧
      Lst.mulAssign n l = (.ok (), (List.replicate n.toNat l).flatten)) ∧
    (n < 0 → Lst.mul l n = .throw "Error: Times to repeat can not be less than zero.") := by
  refine ⟨fun h0 h1 => ⟨mul_run hl h0 h1, ?_⟩, fun h => ?_⟩
  · simp only [mulAssign, Meth.get_bind, mul_run hl h0 h1, Meth.lift_ok_bind, Meth.set_run]
  · simp [mul, h]

/-- C34 is false of the code beyond: a product `size * n > INT_MAX` overflows before it is checked, so there is no exception
but undefined behaviour; exactly `INT_MAX` is rejected. -/
theorem C34_list_repeat_not [Inhabited α] (l : List α) (hl : l.length ≤ maxLen) (n : Int) (h0 : 0 ≤ n) :
    (INT_MAX < l.length * n → Lst.mul l n = .ub .overflow) ∧
    (l.length * n = INT_MAX → Lst.mul l n = .throw msgFull) := by
  constructor
  · intro h
    unfold mul
    rw [if_neg (by omega), size_eq hl, imul, ck_ub (by rw [isInt_iff]; unfold INT_MAX at h; omega), Res.ub_bind]
  · intro h
    unfold mul
    rw [if_neg (by omega), size_eq hl, imul_ok (by rw [h]; decide), Res.ok_bind, h, checkFull_throw (Int.le_refl _),
      Res.throw_bind]

example : Lst.mul [1, 2] 3 = .ok [1, 2, 1, 2, 1, 2] := by decide +kernel
example : Lst.mul [1, 2] 2000000000 = .ub .overflow := by
  exact (C34_list_repeat_not [1, 2] (by simp [maxLen]) 2000000000 (by omega)).1 (by simp [INT_MAX])

/-! ## C36 Histories -/

/-- One operation of a `List` against the abstract sequence. -/
theorem list_step [DecidableEq α] (op : LOp α) (l : List α) (hl : l.length ≤ maxLen) (ht : op.Typed) (hf : op.Fair l) :
    match op.abs l with
    | .ok (r, l') => op.step .lenient l = (.ok r, l') ∧ l'.length ≤ maxLen
    | .error m => op.step .lenient l = (.throw m, l) := by
  cases op with
  | insert i e =>
    simp only [LOp.abs, LOp.step]
    by_cases hfull : l.length = maxLen
    · rw [if_pos hfull]; exact Meth.run_throw (insert_full hfull)
    · rw [if_neg hfull]
      cases hp : pyInsertPoint l.length i with
      | none => exact Meth.run_throw (insert_none (by omega) hp)
      | some p =>
        refine ⟨Meth.run_ok (insert_some (by omega) hp), ?_⟩
        rw [List.length_insertIdx]; split <;> omega
  | remove i =>
    simp only [LOp.abs, LOp.step]
    by_cases hnil : l = []
    · rw [if_pos hnil]; subst hnil; exact Meth.run_throw remove_nil
    · rw [if_neg hnil]
      cases hp : pyIndex l.length i with
      | none => exact Meth.run_throw (remove_none hl hnil hp)
      | some p =>
        obtain ⟨x, e1, e2⟩ := remove_some hl hp
        refine ⟨by rw [Meth.run_ok e2, e1]; rfl, ?_⟩
        rw [List.length_eraseIdx]; split <;> omega
  | append e =>
    simp only [LOp.abs, LOp.step]
    by_cases hfull : l.length = maxLen
    · rw [if_pos hfull]; exact Meth.run_throw (append_full hfull)
    · rw [if_neg hfull]; exact ⟨Meth.run_ok (append_ok (by omega)), by simp; omega⟩
  | extendList m =>
    simp only [LOp.abs, LOp.step]
    simp only [LOp.Typed] at ht
    simp only [LOp.Fair] at hf
    by_cases hfull : l.length + m.length > maxLen
    · rw [if_pos hfull]; exact Meth.run_throw (extendList_full hl ht (by unfold maxLen at *; omega))
    · rw [if_neg hfull]; exact ⟨Meth.run_ok (extendList_ok hl ht (by unfold maxLen at *; omega)), by simp; omega⟩
  | extend m =>
    simp only [LOp.abs, LOp.step]
    simp only [LOp.Fair] at hf
    exact ⟨Meth.run_ok extend_some, by simpa using hf⟩
  | removeFirst e =>
    simp only [LOp.abs, LOp.step]
    exact ⟨Meth.run_ok removeFirst_run, Nat.le_trans (List.length_erase_le) hl⟩
  | removeAll a =>
    cases a with
    | val e =>
      simp only [LOp.abs, LOp.step]
      have := removeAll_val (l := l) (e := e)
      have hcong : l.filter (fun x => !(x == e)) = l.filter (fun x => decide (x ≠ e)) := by
        apply List.filter_congr; intro x _; by_cases h : x = e <;> simp [h]
      rw [hcong] at this
      exact ⟨Meth.run_ok this, Nat.le_trans (List.length_filter_le ..) hl⟩
    | ref p =>
      simp only [LOp.abs, LOp.step]
      simp only [LOp.Fair] at hf
      have hp : l[p]? = some l[p] := List.getElem?_eq_getElem hf.1
      have hcong : l.filter (fun x => decide (some x ≠ l[p]?)) = l.filter (fun x => !(x == l[p])) := by
        apply List.filter_congr; intro x _; rw [hp]; by_cases h : x = l[p] <;> simp [h]
      rw [hcong] at hf ⊢
      exact ⟨Meth.run_ok (removeAll_ref_good hp hf.2), Nat.le_trans (List.length_filter_le ..) hl⟩
  | rotL n =>
    simp only [LOp.abs, LOp.step]
    exact ⟨Meth.run_ok (rotL_run hl ht), by rw [rotated_length]; exact hl⟩
  | rotR n =>
    simp only [LOp.abs, LOp.step]
    exact ⟨Meth.run_ok (rotR_run hl ht hf), by rw [rotated_length]; exact hl⟩
  | reverse =>
    simp only [LOp.abs, LOp.step]
    exact ⟨Meth.run_ok (x := Lst.reverse) (s := l) (s' := l.reverse) (a := ()) (by simp [Lst.reverse]),
      by simpa using hl⟩
  | erase a b =>
    simp only [LOp.abs, LOp.step]
    simp only [LOp.Fair] at hf
    by_cases hr : 0 ≤ a ∧ a ≤ l.length ∧ 0 ≤ b ∧ b ≤ l.length
    · rw [if_pos hr]
      refine ⟨?_, ?_⟩
      · rw [Meth.run_ok (erase_ok hf.2 hr.1 hf.1 hr.2.2.2), Int.max_eq_right hf.1]; rfl
      · simp; omega
    · rw [if_neg hr]; exact Meth.run_throw (erase_throw hf.2 hr)
  | assign i e =>
    simp only [LOp.abs, LOp.step]
    cases hp : pyIndex l.length i with
    | none => exact Meth.run_throw (assign_none hl hp)
    | some p => exact ⟨Meth.run_ok (assign_some hl hp), by simpa using hl⟩
  | clear =>
    simp only [LOp.abs, LOp.step]
    exact ⟨Meth.run_ok (x := Lst.clear) (s := l) (s' := []) (a := ()) (by simp [Lst.clear]), by simp⟩
  | addSelf =>
    simp only [LOp.abs, LOp.step]
    simp only [LOp.Fair] at hf
    by_cases hfull : l.length + l.length > maxLen
    · rw [if_pos hfull]; exact Meth.run_throw (addSelf_full hl (by unfold maxLen at *; omega))
    · rw [if_neg hfull]; exact ⟨Meth.run_ok (addSelf_ok hl (by unfold maxLen at *; omega)), by simp; omega⟩

/-- What the caller sees of an abstract result. -/
def seen {β : Type} : Except String β → Res β
  | .ok b => .ok b
  | .error m => .throw m

/-- C36 for every history of fair operations: all returned elements, all exceptions and the final contents are those of the
abstract sequence (on which an operation that throws changes nothing). -/
theorem C36_list_history_partial [DecidableEq α] (ops : List (LOp α)) (l : List α) (hl : l.length ≤ maxLen)
    (hf : FairRun l ops) :
    (LOp.run .lenient ops l).1 = (absRun l ops).1.map seen ∧ (LOp.run .lenient ops l).2 = (absRun l ops).2 := by
  induction ops generalizing l with
  | nil => simp [LOp.run, absRun]
  | cons op ops ih =>
    obtain ⟨ht, hfair, hrest⟩ := hf
    have hstep := list_step op l hl ht hfair
    cases habs : op.abs l with
    | ok x =>
      obtain ⟨r, l'⟩ := x
      simp only [habs] at hstep hrest
      obtain ⟨h1, h2⟩ := ih l' hstep.2 hrest
      simp [LOp.run, absRun, habs, hstep.1, h1, h2, seen]
    | error m =>
      simp only [habs] at hstep hrest
      obtain ⟨h1, h2⟩ := ih l hl hrest
      simp [LOp.run, absRun, habs, hstep, h1, h2, seen]

/-- A history that meets the hypotheses, with its outcome. -/
example : FairRun [1, 2, 3] [.insert (-1) 9, .remove 7, .removeAll (.val 2), .rotR 1, .erase 0 1, .append 4, .addSelf] ∧
    absRun [1, 2, 3] [.insert (-1) 9, .remove 7, .removeAll (.val 2), .rotR 1, .erase 0 1, .append 4, .addSelf] =
      ([.ok none, .error msgIndex, .ok none, .ok none, .ok none, .ok none, .ok none], [1, 9, 4, 1, 9, 4]) := by
  constructor
  · simp [FairRun, LOp.Typed, LOp.Fair, LOp.abs, IsInt, INT_MIN, INT_MAX, maxLen, pyInsertPoint, pyIndex, rotated]
  · rfl

/-- C36 is false of the code as stated: `erase` backwards is undefined behaviour, and removing `l[0]` by reference from
`{1, 2, 3, 1}` leaves the last 1 and would do so for any value. -/
theorem C36_list_history_not :
    (LOp.run .lenient [.erase 2 1] [1, 2, 3]).1 = [.ub .badRange] ∧
    (LOp.run .lenient [.removeAll (.ref 0)] [1, 2, 3, 1]).2 = [2, 3, 1] ∧
    (absRun [1, 2, 3, 1] [.removeAll (.ref 0)]).2 = [2, 3] := by
  refine ⟨by decide +kernel, by decide +kernel, by decide +kernel⟩

/-- `l += l` in the strict reading of the standard: undefined, whatever the list. -/
theorem C36_list_self_append_strict (l : List α) (hl : l.length ≤ 1000000000) :
    Lst.extendList .strict none l = (.ub .badRange, l) := by
  obtain ⟨e1, e2⟩ := half_full (s := l.length) (t := l.length) (by unfold maxLen; omega) (by unfold maxLen; omega)
  have hs : size l = l.length := size_eq (by unfold maxLen; omega)
  simp only [extendList, Meth.get_bind, Option.getD_none, hs, e1, e2, Meth.lift_ok_bind,
    checkFull_ok (a := ((l.length / 2 + l.length / 2 : Nat) : Int)) (b := 1073741823) (by omega), stdInsertEnd,
    Option.isNone_none, true_and, if_true, Meth.lift_ub_bind]

/-! ## C37 uniquify -/

/-- C37: the result has the same values, each once, in the order of their first occurrence in the old list. -/
theorem C37_list_uniquify [DecidableEq α] (l : List α) :
    ∃ r, Lst.uniquify l = (.ok (), r) ∧ r.Nodup ∧ (∀ x, x ∈ r ↔ x ∈ l) ∧
      r.Pairwise (fun a b => l.idxOf a < l.idxOf b) := by
  obtain ⟨r, e1, e2, e3, e4⟩ := uniquifyLoop_spec l [] [] (by simp) (by simp) (by simp)
  exact ⟨r, by simp only [uniquify, Meth.get_bind, e1, Meth.lift_ok_bind, Meth.set_run], e2, by simpa using e3,
    by simpa using e4⟩

example : Lst.uniquify [3, 1, 3, 2, 1] = (.ok (), [3, 1, 2]) := by decide +kernel

/-! ## C38 sort -/

/-- C38. -/
theorem C38_list_sort (l : List α) (lt : α → α → Bool) (h : StrictWeak lt) :
    ∃ r, Lst.sort lt l = (.ok (), r) ∧ r.Perm l ∧ r.Pairwise (fun a b => lt b a = false) ∧
      ∀ x, r.filter (equivBy lt x) = l.filter (equivBy lt x) := by
  refine ⟨l.mergeSort (fun a b => !(lt b a)), by simp only [sort, Meth.get_bind, Meth.set_run],
    List.mergeSort_perm .., ?_, ?_⟩
  · have := List.pairwise_mergeSort (le := fun a b => !(lt b a)) (fun a b c => StrictWeak.le_trans h a b c)
      (fun a b => StrictWeak.total h a b) l
    apply List.Pairwise.imp _ this
    intro a b hab; simpa using hab
  · intro x
    have hsub : (l.filter (equivBy lt x)).Sublist (l.mergeSort (fun a b => !(lt b a))) := by
      apply List.sublist_mergeSort (fun a b c => StrictWeak.le_trans h a b c) (fun a b => StrictWeak.total h a b)
      · rw [List.pairwise_iff_forall_sublist]
        intro a b hab
        have ha : a ∈ l.filter (equivBy lt x) := hab.subset (by simp)
        have hb : b ∈ l.filter (equivBy lt x) := hab.subset (by simp)
        simp only [List.mem_filter, equivBy, Bool.and_eq_true, Bool.not_eq_true'] at ha hb
        have := (h.incomp a x b ha.2.2 ha.2.1 hb.2.1 hb.2.2).2
        simpa using this
      · exact List.filter_sublist
    have hsub' := hsub.filter (equivBy lt x)
    rw [List.filter_filter] at hsub'
    simp only [Bool.and_self] at hsub'
    have hlen : ((l.mergeSort (fun a b => !(lt b a))).filter (equivBy lt x)).length = (l.filter (equivBy lt x)).length :=
      ((List.mergeSort_perm l _).filter _).length_eq
    exact (hsub'.eq_of_length hlen.symm).symm

/-- A strict weak order that is not total: pairs by first component. -/
example : StrictWeak (fun a b : Int × Int => decide (a.1 < b.1)) :=
  ⟨by simp, by simp; intros; omega, by simp; intros; omega⟩
example : (Lst.sort (fun a b : Int × Int => decide (a.1 < b.1)) [(2, 0), (1, 1), (2, 2), (1, 3)]).2 =
    [(1, 1), (1, 3), (2, 0), (2, 2)] := by
  simp [sort, List.mergeSort, List.MergeSort.Internal.splitInTwo]

/-! ## C39 remove-all, filter, map -/

/-- C39 for `l /= e` with an `e` outside the list. -/
theorem C39_list_remove_all_partial [DecidableEq α] (l : List α) (e : α) :
    Lst.removeAll (.val e) l = (.ok (), l.filter (fun x => decide (x ≠ e))) := by
  rw [removeAll_val]
  congr 1
  apply List.filter_congr; intro x _; by_cases h : x = e <;> simp [h]

/-- What `l /= l[p]` does: right if at most `p` elements differ from `l[p]`; otherwise, from the `p+1`-st differing element
`w` on, the elements equal to `w` are dropped instead. -/
theorem C39_list_remove_all_self [DecidableEq α] (l : List α) (p : Nat) (e : α) (hp : l[p]? = some e) :
    ((l.filter (fun x => decide (x ≠ e))).length ≤ p →
      Lst.removeAll (.ref p) l = (.ok (), l.filter (fun x => decide (x ≠ e)))) ∧
    (∀ a w b, l = a ++ w :: b → w ≠ e → (a.filter (fun x => decide (x ≠ e))).length = p →
      Lst.removeAll (.ref p) l =
        (.ok (), a.filter (fun x => decide (x ≠ e)) ++ w :: b.filter (fun x => decide (x ≠ w)))) := by
  have hc : ∀ (m : List α) (y : α), m.filter (fun x => decide (x ≠ y)) = m.filter (fun x => !(x == y)) := by
    intro m y; apply List.filter_congr; intro x _; by_cases h : x = y <;> simp [h]
  simp only [hc]
  constructor
  · exact fun h => removeAll_ref_good hp h
  · rintro a w b rfl hw hc; exact removeAll_ref_bad hp hw hc

/-- C39 is false of the code: `l = {1, 2, 3, 1}; l /= l[0];` leaves a 1. -/
theorem C39_list_remove_all_not : Lst.removeAll (.ref 0) [1, 2, 3, 1] = (.ok (), [2, 3, 1]) := by decide +kernel

/-- C39 for `filter` (with the usual implementation of `std::copy_if`; the standard does not define the overlapping call). -/
theorem C39_list_filter_partial (l : List α) (p : α → Bool) :
    Lst.filter .lenient p l = (.ok (), l.filter p) ∧ (l ≠ [] → Lst.filter .strict p l = (.ub .badRange, l)) := by
  refine ⟨filter_lenient, fun h => ?_⟩
  simp only [Lst.filter, Meth.get_bind]
  rw [if_pos ⟨trivial, h⟩, Meth.lift_run]

/-- C39 for `map`: an action that does not throw is applied to every element once, first to last. -/
theorem C39_list_map {σ : Type} (l : List α) (s : σ) (f : α → σ → α × σ) :
    Lst.map (fun x s => (.ok (), f x s)) (l, s) = (.ok (), eachInOrder f l s) := by
  simp only [Lst.map, Meth.get_bind]
  rw [forEach_run _ (fun _ _ => rfl) l.length 0 l s (by omega)]
  simp

/-- In particular without environment it is `List.map`, and the actions are performed in order. -/
theorem C39_list_map_order (l : List α) (f : α → α) :
    Lst.map (fun x (log : List α) => (.ok (), f x, log ++ [x])) (l, []) = (.ok (), l.map f, l) := by
  rw [C39_list_map]
  have : ∀ (l log : List α), eachInOrder (fun x (log : List α) => (f x, log ++ [x])) l log = (l.map f, log ++ l) := by
    intro l
    induction l with
    | nil => simp [eachInOrder]
    | cons x xs ih => intro log; simp [eachInOrder, ih]
  rw [this]; simp

example : Lst.removeAll (.val 1) [1, 2, 3, 1] = (.ok (), [2, 3]) := by decide +kernel
example : Lst.filter .lenient (fun x => x % 2 == 0) [1, 2, 4, 5, 6] = (.ok (), [2, 4, 6]) := by decide +kernel

/-! ## C40 Searching -/

/-- C40 for `index` with `0 <= start <= min(stop, size)`; `contains` agrees. -/
theorem C40_list_index_partial [DecidableEq α] (l : List α) (hl : l.length ≤ maxLen) (e : α) (start stop : Int)
    (h1 : 0 ≤ start) (h2 : start ≤ min stop l.length) :
    ∃ r, Lst.index l e start stop = .ok r ∧ Lst.contains l e start stop = .ok (decide (r ≠ -1)) ∧
      ((r = -1 ∧ ∀ i : Nat, start ≤ i → (i : Int) < stop → l[i]? ≠ some e) ∨
       ∃ p : Nat, r = p ∧ start ≤ p ∧ (p : Int) < stop ∧ l[p]? = some e ∧ ∀ i : Nat, start ≤ i → i < p → l[i]? ≠ some e) := by
  obtain ⟨r, e1, e2⟩ := index_run (e := e) hl h1 h2
  refine ⟨r, e1, ?_, e2⟩
  unfold contains; rw [e1]; simp [bne]; by_cases h : r = -1 <;> simp [h]

/-- C40 is false of the code: for every other `start`/`stop` the call reads outside the list. -/
theorem C40_list_index_not [DecidableEq α] (l : List α) (hl : l.length ≤ maxLen) (e : α) (start stop : Int)
    (h : ¬ (0 ≤ start ∧ start ≤ min stop l.length)) : Lst.index l e start stop = .ub .badRange := by
  by_cases hs : 0 ≤ start ∧ start ≤ l.length
  · exact index_ub_stop hl hs (by omega)
  · exact index_ub_start hs

/-- C40 with the default arguments: always defined. -/
theorem C40_list_index_default [DecidableEq α] (l : List α) (hl : l.length ≤ maxLen) (e : α) :
    ∃ r, Lst.index l e = .ok r ∧ Lst.contains l e = .ok (decide (e ∈ l)) ∧
      (e ∉ l → r = -1) ∧ (e ∈ l → r = l.idxOf e) := by
  obtain ⟨r, e1, e2, e3⟩ := C40_list_index_partial l hl e 0 INT_MAX (by omega)
    (by unfold maxLen at hl; unfold INT_MAX; omega)
  refine ⟨r, e1, ?_, ?_, ?_⟩
  · suffices hdec : decide (r ≠ -1) = decide (e ∈ l) by rw [e2, hdec]
    rcases e3 with ⟨rfl, h⟩ | ⟨p, rfl, _, _, h, _⟩
    · simp only [ne_eq, not_true_eq_false, decide_false]
      symm; rw [decide_eq_false_iff_not]
      intro hm
      obtain ⟨j, hj, rfl⟩ := List.getElem_of_mem hm
      exact h j (by omega) (by unfold maxLen at hl; unfold INT_MAX; omega) (List.getElem?_eq_getElem hj)
    · have : e ∈ l := List.mem_of_getElem? h
      simp [this]
  · intro hm
    rcases e3 with ⟨rfl, _⟩ | ⟨p, rfl, _, _, h, _⟩
    · rfl
    · exact absurd (List.mem_of_getElem? h) hm
  · intro hm
    have hlt := List.idxOf_lt_length_of_mem hm
    have hget : l[l.idxOf e]? = some e := by rw [List.getElem?_eq_getElem hlt]; simp
    rcases e3 with ⟨rfl, h⟩ | ⟨p, rfl, _, _, h, hmin⟩
    · exact absurd hget (h (l.idxOf e) (by omega) (by unfold maxLen at hl; unfold INT_MAX; omega))
    · suffices hpe : p = l.idxOf e by rw [hpe]
      rcases Nat.lt_trichotomy p (l.idxOf e) with hlt' | heq | hgt
      · exfalso
        have hp : p < l.length := by omega
        rw [List.getElem?_eq_getElem hp] at h
        have := List.not_of_lt_findIdx (xs := l) (p := fun x => x == e) (i := p) hlt'
        simp at h; simp [h] at this
      · exact heq
      · exact absurd hget (hmin _ (by omega) hgt)

/-- C40 for `find` (position; `size` is `end()`) and `count`. -/
theorem C40_list_find_count [DecidableEq α] (l : List α) (hl : l.length ≤ maxLen) (e : α) :
    Lst.find l e = .ok (l.idxOf e) ∧ Lst.count l e = l.count e := by
  constructor
  · unfold find; rw [stdFind_all]; rfl
  · unfold count List.count
    have := List.countP_le_length (l := l) (p := fun x => x == e)
    exact wrap32_eq (by rw [isInt_iff]; unfold maxLen at hl; omega)

example : Lst.index [5, 6, 7, 6] 6 2 4 = .ok 3 ∧ Lst.index [5, 6, 7, 6] 6 (-1) 4 = .ub .badRange := by decide +kernel

/-! ## C41 Sizes -/

/-- C41 for `List`: the checked operations never let the size exceed `INT_MAX`; they throw instead, and no size
computation in them overflows. -/
theorem C41_list_size_partial (l m : List α) (hl : l.length ≤ maxLen) (hm : m.length ≤ maxLen) (i : Int) (e : α) :
    (∀ op ∈ [Lst.insert i e, Lst.append e, Lst.extendList .lenient (some m), Lst.extendList .lenient none],
      ((op l).1 = .ok () ∧ (op l).2.length ≤ maxLen ∧ 0 ≤ Lst.size (op l).2) ∨ ((∃ msg, (op l).1 = .throw msg) ∧ (op l).2 = l)) ∧
    0 ≤ Lst.size l := by
  have hsz : ∀ x : List α, x.length ≤ maxLen → 0 ≤ Lst.size x := by intro x hx; rw [size_eq hx]; omega
  refine ⟨?_, hsz l hl⟩
  intro op hop
  simp only [List.mem_cons, List.not_mem_nil, or_false] at hop
  rcases hop with rfl | rfl | rfl | rfl
  · by_cases hfull : l.length = maxLen
    · right; rw [insert_full hfull]; exact ⟨⟨_, rfl⟩, rfl⟩
    · cases hp : pyInsertPoint l.length i with
      | none => right; rw [insert_none (by omega) hp]; exact ⟨⟨_, rfl⟩, rfl⟩
      | some p =>
        left; rw [insert_some (by omega) hp]
        have : (l.insertIdx p e).length ≤ maxLen := by rw [List.length_insertIdx]; split <;> omega
        exact ⟨rfl, this, hsz _ this⟩
  · by_cases hfull : l.length = maxLen
    · right; rw [append_full hfull]; exact ⟨⟨_, rfl⟩, rfl⟩
    · left; rw [append_ok (by omega)]
      have : (l ++ [e]).length ≤ maxLen := by simp; omega
      exact ⟨rfl, this, hsz _ this⟩
  · by_cases h : l.length / 2 + m.length / 2 < 1073741823
    · left; rw [extendList_ok hl hm h]
      have : (l ++ m).length ≤ maxLen := by simp; unfold maxLen; omega
      exact ⟨rfl, this, hsz _ this⟩
    · right; rw [extendList_full hl hm (by omega)]; exact ⟨⟨_, rfl⟩, rfl⟩
  · by_cases h : l.length / 2 + l.length / 2 < 1073741823
    · left; rw [addSelf_ok hl h]
      have : (l ++ l).length ≤ maxLen := by simp; unfold maxLen; omega
      exact ⟨rfl, this, hsz _ this⟩
    · right; rw [addSelf_full hl (by omega)]; exact ⟨⟨_, rfl⟩, rfl⟩

/-- C41: `+=` throws exactly when the lengths are too large, except that a sum of `INT_MAX`, and a sum of `INT_MAX - 1` of two
even lengths, is refused although it would fit. -/
theorem C41_list_append_exact (l m : List α) (hl : l.length ≤ maxLen) (hm : m.length ≤ maxLen) :
    (Lst.extendList .lenient (some m) l).1 = .throw msgFull ↔
      l.length + m.length ≥ maxLen ∨ (l.length + m.length = maxLen - 1 ∧ l.length % 2 = 0) := by
  by_cases h : l.length / 2 + m.length / 2 < 1073741823
  · rw [extendList_ok hl hm h]; simp; unfold maxLen; omega
  · rw [extendList_full hl hm (by omega)]; simp; unfold maxLen; omega

/-- C41 is false of the code beyond the checked operations: `extend` is unchecked, and appending one element to a list of
`INT_MAX` elements through it makes `size()` negative. -/
theorem C41_list_extend_not (l : List α) (hl : l.length = maxLen) (e : α) :
    ∃ r, Lst.extend .lenient (some [e]) l = (.ok (), r) ∧ Lst.size r = -2147483648 := by
  refine ⟨l ++ [e], extend_some, ?_⟩
  unfold size wrap32; simp [hl, maxLen]

example : ∃ l : List Unit, l.length = maxLen := ⟨List.replicate maxLen (), List.length_replicate⟩

end Pyincpp
