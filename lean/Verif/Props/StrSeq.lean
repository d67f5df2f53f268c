import Verif.Proof.StrSeq
import Verif.Props.List

/-! # Property theorems: strings as sequences (C28-C35, C41 for `Str`) -/

namespace Pyincpp
open Lst

/-! ## C33 Index -/

/-- C33 for `Str`. -/
theorem C33_str_index (s : List UInt8) (hs : s.length ≤ maxLen) (i : Int) :
    (0 ≤ i ∧ i < s.length → ∃ x, s[i.toNat]? = some x ∧ Str.get s i = .ok x) ∧
    (-(s.length : Int) ≤ i ∧ i < 0 → ∃ x, s[(s.length + i).toNat]? = some x ∧ Str.get s i = .ok x) ∧
    (i < -(s.length : Int) ∨ (s.length : Int) ≤ i → Str.get s i = .throw "Error: Index out of range.") := by
  obtain ⟨h1, h2, h3⟩ := C33_list_index s hs i
  refine ⟨fun h => ?_, fun h => ?_, fun h => ?_⟩
  · obtain ⟨x, e, g⟩ := h1 h
    exact ⟨x, e, by rw [str_get_eq s i (by rw [g]; simp), g]⟩
  · obtain ⟨x, e, g⟩ := h2 h
    exact ⟨x, e, by rw [str_get_eq s i (by rw [g]; simp), g]⟩
  · have g := h3 h
    rw [str_get_eq s i (by rw [g]; simp), g]

example : Str.get [97, 98, 99] (-1) = .ok 99 ∧ Str.get [97, 98, 99] 3 = .throw "Error: Index out of range." := by decide +kernel

/-! ## C28 Slices -/

/-- C28 for `Str`, where the counter does not overflow. -/
theorem C28_str_slice_partial (l : List UInt8) (hl : l.length < maxLen) (start stop step : Int) (hstep : step ≠ 0)
    (hint : IsInt step) (h1 : -(l.length : Int) ≤ start) (h2 : start < l.length) (h3 : -(l.length : Int) - 1 ≤ stop)
    (h4 : stop ≤ l.length) (s t : Int) (hs : s = if start < 0 then start + l.length else start)
    (ht : t = if stop < 0 then stop + l.length else stop)
    (hno : ∀ j : Nat, Before step (s + j * step) t → s + (j + 1) * step ≤ INT_MAX) :
    ∃ r, IsSlice l s t step r ∧ Returns (fun k => Str.slice k l start stop step) r := by
  obtain ⟨r, hr, N, hN⟩ := C28_list_slice_partial l hl start stop step hstep hint h1 h2 h3 h4 s t hs ht hno
  refine ⟨r, hr, N, fun k hk => ?_⟩
  have := hN k hk
  beta_reduce at this ⊢
  rw [str_slice_eq k l start stop step (by rw [this]; simp), this]

/-- C28 for `Str`: the errors. -/
theorem C28_str_slice_throws (k : Nat) (l : List UInt8) (hl : l.length < maxLen) (start stop step : Int) :
    (step = 0 → Str.slice k l start stop step = .throw "Error: Slice step can not be zero.") ∧
    (step ≠ 0 → ¬ (-(l.length : Int) ≤ start ∧ start < l.length ∧ -(l.length : Int) - 1 ≤ stop ∧ stop ≤ l.length) →
      Str.slice k l start stop step = .throw "Error: Index out of range.") := by
  obtain ⟨h1, h2⟩ := C28_list_slice_throws k l hl start stop step
  refine ⟨fun h => ?_, fun h h' => ?_⟩
  · have := h1 h; rw [str_slice_eq k l start stop step (by rw [this]; simp), this]
  · have := h2 h h'; rw [str_slice_eq k l start stop step (by rw [this]; simp), this]

/-- C28 for `Str`, the remaining case: the loop counter overflows, which is undefined behaviour. -/
theorem C28_str_slice_overflow (l : List UInt8) (hl : l.length < maxLen) (start stop step : Int) (hstep : step ≠ 0)
    (h1 : -(l.length : Int) ≤ start) (h2 : start < l.length) (h3 : -(l.length : Int) - 1 ≤ stop)
    (h4 : stop ≤ l.length) (s t : Int) (hs : s = if start < 0 then start + l.length else start)
    (ht : t = if stop < 0 then stop + l.length else stop)
    (hov : ∃ j : Nat, Before step (s + j * step) t ∧ INT_MAX < s + (j + 1) * step) :
    HitsUB (fun k => Str.slice k l start stop step) .overflow := by
  obtain ⟨N, hN⟩ := C28_list_slice_overflow l hl start stop step hstep h1 h2 h3 h4 s t hs ht hov
  refine ⟨N, fun k hk => ?_⟩
  have := hN k hk
  beta_reduce at this ⊢
  rw [str_slice_eq k l start stop step (by rw [this]; simp), this]

/-- C28 is false of `Str`: `Str("ab").slice(1, 2, INT_MAX)` overflows. -/
theorem C28_str_slice_not : HitsUB (fun k => Str.slice k [97, 98] 1 2 INT_MAX) .overflow := by
  apply C28_str_slice_overflow [97, 98] (by simp [maxLen]) 1 2 INT_MAX (by decide) (by simp) (by simp) (by simp)
    (by simp) 1 2 (by simp) (by simp)
  exact ⟨0, by unfold Before INT_MAX; simp, by unfold INT_MAX; simp⟩

/-- So is a slice of a string of `INT_MAX` characters. -/
theorem C28_str_slice_max (k : Nat) (l : List UInt8) (hl : l.length = maxLen) (start stop step : Int) (hstep : step ≠ 0)
    (h1 : -(l.length : Int) ≤ start) (h2 : start < l.length) : Str.slice k l start stop step = .ub .overflow := by
  have := C28_list_slice_max k l hl start stop step hstep h1 h2
  rw [str_slice_eq k l start stop step (by rw [this]; simp), this]

example : Str.slice 10 [97, 98, 99, 100, 101] 0 5 2 = .ok [97, 99, 101] := by decide +kernel
example : Str.slice 10 [97, 98, 99, 100, 101] (-1) (-6) (-2) = .ok [101, 99, 97] := by decide +kernel

/-! ## C29 Rotation -/

/-- C29 for `Str <<`. -/
theorem C29_str_rotate_left (s : List UInt8) (hs : s.length ≤ maxLen) (n : Int) (hn : IsInt n) :
    ∃ r, Str.shl s n = .ok r ∧ r.length = s.length ∧
      ∀ i : Nat, i < s.length → r[i]? = s[(((i : Int) + n) % s.length).toNat]? :=
  ⟨rotated s n, by rw [shl_eq hs, onCopy_run (rotL_run hs hn)], rotated_length s n, fun i hi => rotated_get s n i hi⟩

/-- C29 for `Str >>`, which fails for the single value `INT_MIN`. -/
theorem C29_str_rotate_right_partial (s : List UInt8) (hs : s.length ≤ maxLen) (n : Int) (hn : IsInt n) (hm : n ≠ INT_MIN) :
    ∃ r, Str.shr s n = .ok r ∧ r.length = s.length ∧
      ∀ i : Nat, i < s.length → r[i]? = s[(((i : Int) - n) % s.length).toNat]? :=
  ⟨rotated s (-n), by rw [shr_eq hs, onCopy_run (rotR_run hs hn (Or.inl hm))], rotated_length s _, fun i hi => rotated_get s (-n) i hi⟩

/-- C29 is false of `Str >> INT_MIN` for two or more characters. -/
theorem C29_str_rotate_right_not (s : List UInt8) (hs : s.length ≤ maxLen) (h2 : 2 ≤ s.length) :
    Str.shr s INT_MIN = .ub .overflow := by
  rw [shr_eq hs, onCopy_ub (rotR_min hs h2)]

/-- C29: rotations of strings add up. -/
theorem C29_str_compose (s : List UInt8) (hs : s.length ≤ maxLen) (m n : Int) (hm : IsInt m) (hn : IsInt n)
    (hmn : IsInt (m + n)) : (do Str.shl (← Str.shl s m) n) = Str.shl s (m + n) := by
  rw [shl_eq hs m, onCopy_run (rotL_run hs hm), Res.ok_bind, shl_eq (by rw [rotated_length]; exact hs), onCopy_run (rotL_run (by rw [rotated_length]; exact hs) hn),
    shl_eq hs, onCopy_run (rotL_run hs hmn), rotated_rotated]

/-- C29: left then right by the same amount restores the string; right by `n` is left by `-n`. -/
theorem C29_str_restore_partial (s : List UInt8) (hs : s.length ≤ maxLen) (n : Int) (hn : IsInt n) (hm : n ≠ INT_MIN) :
    (do Str.shr (← Str.shl s n) n) = .ok s ∧ Str.shr s n = Str.shl s (-n) := by
  constructor
  · rw [shl_eq hs n, onCopy_run (rotL_run hs hn), Res.ok_bind, shr_eq (by rw [rotated_length]; exact hs),
      onCopy_run (rotR_run (by rw [rotated_length]; exact hs) hn (Or.inl hm)), rotated_rotated,
      show n + -n = 0 by ring, rotated_zero]
  · rw [shr_eq hs, onCopy_run (rotR_run hs hn (Or.inl hm)), shl_eq hs,
      onCopy_run (rotL_run hs (by rw [isInt_iff] at *; unfold INT_MIN at hm; omega))]

example : Str.shl [97, 98, 99] (-4) = .ok [99, 97, 98] := by decide +kernel
example : Str.shr [97, 98, 99] 4 = .ok [99, 97, 98] := by decide +kernel

/-- `reverse` reads from the end. -/
theorem C29_str_reverse (s : List UInt8) (hs : s.length ≤ maxLen) :
    ∃ r, Str.reverse s = .ok r ∧ r.length = s.length ∧ ∀ i : Nat, i < s.length → r[i]? = s[s.length - 1 - i]? := by
  unfold Str.reverse
  exact ⟨s.reverse, copy_buffer hs (by simp), by simp, fun i hi => List.getElem?_reverse hi⟩

/-- A string one character longer has a negative `size()`: `reverse` throws what the constructor of the buffer throws. -/
theorem C29_str_reverse_long_not (s : List UInt8) (hs : s.length = maxLen + 1) :
    Str.reverse s = .throw "basic_string::_M_create" := by
  unfold Str.reverse Str.size Str.buffer
  rw [hs, if_pos (by unfold maxLen wrap32; omega)]; rfl

example : Str.reverse [97, 98] = .ok [98, 97] := by decide +kernel
example : ∃ s : List UInt8, s.length = maxLen + 1 := ⟨List.replicate (maxLen + 1) 97, List.length_replicate⟩

/-! ## C30 Case -/

/-- A statement about all bytes, checked one by one. -/
theorem byte_forall {P : UInt8 → Prop} [DecidablePred P] (h : ∀ n : Fin 256, P (UInt8.ofNat n)) (c : UInt8) : P c := by
  have := h ⟨c.toNat, c.toNat_lt⟩
  simpa using this

/-- A byte that `lower` treats properly: a letter `A-Z`, or a byte whose bit 5 is set already. -/
def LowerSafe (c : UInt8) : Prop := (65 ≤ c.toNat ∧ c.toNat ≤ 90) ∨ c &&& 32 = 32
/-- A byte that `upper` treats properly: a letter `a-z`, or a byte whose bit 5 is clear already. -/
def UpperSafe (c : UInt8) : Prop := (97 ≤ c.toNat ∧ c.toNat ≤ 122) ∨ c &&& 32 = 0

theorem lower_byte (c : UInt8) : (c ||| 0b00100000 = asciiLower c) ↔ LowerSafe c := by
  revert c
  unfold LowerSafe asciiLower
  apply byte_forall
  decide +kernel

theorem upper_byte (c : UInt8) : (c &&& 0b11011111 = asciiUpper c) ↔ UpperSafe c := by
  revert c
  unfold UpperSafe asciiUpper
  apply byte_forall
  decide +kernel

theorem map_eq_map {α : Type} (f g : α → α) (l : List α) : l.map f = l.map g ↔ ∀ x ∈ l, f x = g x := List.map_inj_left

/-- C30, exactly when it holds: `lower()` (`upper()`) changes only letter case exactly on the strings all of whose bytes are
`A-Z` (`a-z`) or have bit 5 set (clear). -/
theorem C30_case_exact (s : List UInt8) :
    (Str.lower s = s.map asciiLower ↔ ∀ c ∈ s, LowerSafe c) ∧ (Str.upper s = s.map asciiUpper ↔ ∀ c ∈ s, UpperSafe c) := by
  unfold Str.lower Str.upper
  constructor
  · rw [map_eq_map]; exact ⟨fun h c hc => (lower_byte c).1 (h c hc), fun h c hc => (lower_byte c).2 (h c hc)⟩
  · rw [map_eq_map]; exact ⟨fun h c hc => (upper_byte c).1 (h c hc), fun h c hc => (upper_byte c).2 (h c hc)⟩

/-- C30 for texts of ASCII letters, and with digits, blanks and most punctuation for `lower` only. -/
theorem C30_letters_partial (s : List UInt8)
    (h : ∀ c ∈ s, (65 ≤ c.toNat ∧ c.toNat ≤ 90) ∨ (97 ≤ c.toNat ∧ c.toNat ≤ 122)) :
    Str.lower s = s.map asciiLower ∧ Str.upper s = s.map asciiUpper := by
  have key : ∀ c : UInt8, ((65 ≤ c.toNat ∧ c.toNat ≤ 90) ∨ (97 ≤ c.toNat ∧ c.toNat ≤ 122)) → LowerSafe c ∧ UpperSafe c := by
    unfold LowerSafe UpperSafe
    apply byte_forall
    decide +kernel
  exact ⟨(C30_case_exact s).1.2 (fun c hc => (key c (h c hc)).1), (C30_case_exact s).2.2 (fun c hc => (key c (h c hc)).2)⟩

/-- C30 is false of the code: `Str("_\n").lower()` is `"\x7f*"`, and `Str("a 1").upper()` has a NUL instead of the space. -/
theorem C30_case_not : Str.lower [95, 10] = [127, 42] ∧ Str.upper [97, 32, 49] = [65, 0, 17] := by decide

/-- C30: the length is kept. -/
theorem C30_length (s : List UInt8) : (Str.lower s).length = s.length ∧ (Str.upper s).length = s.length := by
  simp [Str.lower, Str.upper]

example : ∀ c ∈ ([72, 105] : List UInt8), (65 ≤ c.toNat ∧ c.toNat ≤ 90) ∨ (97 ≤ c.toNat ∧ c.toNat ≤ 122) := by decide
example : Str.lower [72, 105] = [104, 105] := by decide

/-! ## C31 Strip -/

/-- The two lines' worth of C31 for a set `B` of bytes to strip. -/
def Stripped (B : UInt8 → Prop) (s r : List UInt8) : Prop :=
  ∃ pre suf, s = pre ++ (r ++ suf) ∧ (∀ c ∈ pre, B c) ∧ (∀ c ∈ suf, B c) ∧
    (∀ c t, r = c :: t → ¬ B c) ∧ (∀ c t, r = t ++ [c] → ¬ B c)

/-- The requirement determines the result. -/
theorem C31_unique (B : UInt8 → Prop) (s r r' : List UInt8) (h : Stripped B s r) (h' : Stripped B s r') : r = r' := by
  obtain ⟨p, q, e, hp, hq, hf, hl⟩ := h
  obtain ⟨p', q', e', hp', hq', hf', hl'⟩ := h'
  classical
  -- both are what is left after dropping from both ends
  have key : ∀ {p q r : List UInt8}, s = p ++ (r ++ q) → (∀ c ∈ p, B c) → (∀ c ∈ q, B c) →
      (∀ c t, r = c :: t → ¬ B c) → (∀ c t, r = t ++ [c] → ¬ B c) →
      r = ((s.dropWhile (fun c => decide (B c))).reverse.dropWhile (fun c => decide (B c))).reverse := by
    intro p q r e hp hq hf hl
    have dw : ∀ {x y : List UInt8}, (∀ c ∈ x, B c) → (x ++ y).dropWhile (fun c => decide (B c)) = y.dropWhile (fun c => decide (B c)) := by
      intro x y hx
      induction x with
      | nil => rfl
      | cons a x ih => simp [hx a (by simp)]; exact ih (fun c hc => hx c (by simp [hc]))
    have dn : ∀ {y : List UInt8}, (∀ c t, y = c :: t → ¬ B c) → y.dropWhile (fun c => decide (B c)) = y := by
      intro y hy
      cases y with
      | nil => rfl
      | cons a y => simp [hy a y rfl]
    rw [e, dw hp]
    by_cases hr : r = []
    · subst hr
      rw [List.nil_append]
      have : q.dropWhile (fun c => decide (B c)) = [] := by
        have := dw (y := []) hq
        simpa using this
      rw [this]; rfl
    · have h1 : (r ++ q).dropWhile (fun c => decide (B c)) = r ++ q := by
        apply dn
        intro c t hc
        cases r with
        | nil => exact absurd rfl hr
        | cons a r => simp at hc; rw [← hc.1]; exact hf a r rfl
      rw [h1, List.reverse_append, dw (fun c hc => hq c (List.mem_reverse.1 hc)), dn, List.reverse_reverse]
      intro c t hc
      exact hl c t.reverse (by rw [← List.reverse_reverse r, hc]; simp)
  rw [key e hp hq hf hl, key e' hp' hq' hf' hl']

theorem strip_stripped (s : List UInt8) (hs : s.length ≤ maxLen) (ch : Int) (B : UInt8 → Prop) (hB : ∀ c ∈ s, Str.stripTest ch c = true ↔ B c) :
    ∃ r, Str.strip .lenient s ch = .ok r ∧ Stripped B s r := by
  obtain ⟨pre, r, suf, h, e, h1, h2, h3, h4⟩ := strip_run s hs ch
  have m1 : ∀ c ∈ pre, c ∈ s := fun c hc => by rw [e]; simp [hc]
  have m2 : ∀ c ∈ suf, c ∈ s := fun c hc => by rw [e]; simp [hc]
  have m3 : ∀ c ∈ r, c ∈ s := fun c hc => by rw [e]; simp [hc]
  refine ⟨r, h, pre, suf, e, fun c hc => (hB c (m1 c hc)).1 (h1 c hc), fun c hc => (hB c (m2 c hc)).1 (h2 c hc), ?_, ?_⟩
  · intro c t hr hb
    have := (hB c (m3 c (by rw [hr]; simp))).2 hb
    rw [h3 c t hr] at this; cases this
  · intro c t hr hb
    have := (hB c (m3 c (by rw [hr]; simp))).2 hb
    rw [h4 c t hr] at this; cases this

/-- What `strip` really does, for every string whose length fits `int`: without argument the bytes above 0x7F count as blank too (`char` is
signed), with the argument -1 (the byte 0xFF) it behaves as without, any other argument strips exactly that byte. -/
theorem C31_strip_exact (s : List UInt8) (hs : s.length ≤ maxLen) :
    (∃ r, Str.strip .lenient s = .ok r ∧ Stripped (fun c => c.toNat ≤ 0x20 ∨ 0x80 ≤ c.toNat) s r) ∧
    (∀ d : UInt8, d ≠ 255 → ∃ r, Str.strip .lenient s (Str.schar d) = .ok r ∧ Stripped (fun c => c = d) s r) ∧
    Str.strip .lenient s (Str.schar 255) = Str.strip .lenient s := by
  refine ⟨strip_stripped s hs _ _ (fun c _ => ?_), fun d hd => strip_stripped s hs _ _ (fun c _ => ?_), rfl⟩
  · unfold Str.stripTest Str.schar
    rw [if_pos rfl]
    have := c.toNat_lt
    split <;> simp <;> omega
  · have hd' : Str.schar d ≠ -1 := by
      intro h; apply hd
      unfold Str.schar at h
      have := d.toNat_lt
      apply UInt8.toNat_inj.1
      split at h
      · omega
      · show d.toNat = 255; omega
    unfold Str.stripTest
    rw [if_neg hd', decide_eq_true_eq]
    constructor
    · intro h
      unfold Str.schar at h
      have h1 := d.toNat_lt; have h2 := c.toNat_lt
      apply UInt8.toNat_inj.1
      split at h <;> split at h <;> omega
    · rintro rfl; rfl

/-- C31 where it holds: ASCII text for `strip()`, every byte but 0xFF for `strip(c)`. -/
theorem C31_strip_partial (s : List UInt8) (hs : s.length ≤ maxLen) :
    ((∀ c ∈ s, c.toNat < 0x80) → ∃ r, Str.strip .lenient s = .ok r ∧ Stripped (fun c => c.toNat ≤ 0x20) s r) ∧
    (∀ d : UInt8, d ≠ 255 → ∃ r, Str.strip .lenient s (Str.schar d) = .ok r ∧ Stripped (fun c => c = d) s r) := by
  refine ⟨fun h => strip_stripped s hs _ _ (fun c hc => ?_), (C31_strip_exact s hs).2.1⟩
  unfold Str.stripTest Str.schar
  have := h c hc
  rw [if_pos rfl, if_pos this]; simp

/-- C31 is false of the code: `strip()` eats a UTF-8 text ("é" at the ends), `strip('\xff')` eats blanks. -/
theorem C31_strip_not :
    (Str.strip .lenient [0xC3, 0xA9, 97, 0xC3, 0xA9] = .ok [97] ∧
      ¬ Stripped (fun c => c.toNat ≤ 0x20) [0xC3, 0xA9, 97, 0xC3, 0xA9] [97]) ∧
    (Str.strip .lenient [32, 97] (Str.schar 255) = .ok [97] ∧ ¬ Stripped (fun c => c = 255) [32, 97] [97]) := by
  refine ⟨⟨by decide +kernel, ?_⟩, by decide +kernel, ?_⟩
  · intro h
    have h2 : Stripped (fun c => c.toNat ≤ 0x20) [0xC3, 0xA9, 97, 0xC3, 0xA9] [0xC3, 0xA9, 97, 0xC3, 0xA9] :=
      ⟨[], [], rfl, by simp, by simp, by intro c t h; cases h; decide,
        by
          intro c t h
          have := congrArg List.getLast? h
          simp at this; rw [← this]; decide⟩
    have := C31_unique _ _ _ _ h h2
    simp at this
  · intro h
    have h2 : Stripped (fun c => c = 255) [32, 97] [32, 97] :=
      ⟨[], [], rfl, by simp, by simp, by intro c t h; cases h; decide,
        by
          intro c t h
          have := congrArg List.getLast? h
          simp at this; rw [← this]; decide⟩
    have := C31_unique _ _ _ _ h h2
    simp at this

/-- Where nothing is left, `strip` forms the iterator `buffer.begin() - 1` (line 592), which is undefined by the standard; otherwise the two readings agree. -/
theorem strip_strict (s : List UInt8) (ch : Int) :
    (Str.strip .lenient s ch = .ok [] → Str.strip .strict s ch = .ub .badRange) ∧
    (Str.strip .lenient s ch ≠ .ok [] → Str.strip .strict s ch = Str.strip .lenient s ch) := by
  unfold Str.strip
  simp only [Str.iterSucc]
  cases Str.stripFront ch s (Str.size s).toNat 0 with
  | ok i =>
    simp only [Res.ok_bind]
    cases Lst.stdErase s 0 i with
    | ok b =>
      simp only [Res.ok_bind]
      cases Str.stripEnd ch b with
      | ok e =>
        simp only [Res.ok_bind]
        by_cases he : e = 0
        · subst he
          rw [if_pos rfl, iter_ok (Int.le_refl 0) (by omega)]
          simp [Lst.stdErase]
        · rw [if_neg he]
          refine ⟨fun h => ?_, fun _ => rfl⟩
          exfalso
          by_cases hr : 0 ≤ e ∧ e ≤ (b.length : Int)
          · rw [iter_ok hr.1 hr.2, Res.ok_bind, Lst.stdErase, if_pos ⟨by omega, by omega⟩, List.drop_length, List.append_nil] at h
            have := congrArg List.length (Res.ok.inj h)
            rw [List.length_take, List.length_nil] at this
            omega
          · rw [iter_ub hr] at h
            cases h
      | _ => exact ⟨fun h => (by cases h), fun _ => rfl⟩
    | _ => exact ⟨fun h => (by cases h), fun _ => rfl⟩
  | _ => exact ⟨fun h => (by cases h), fun _ => rfl⟩

/-- By the letter of the standard `strip` is undefined exactly on the strings of which nothing is left, the empty one among them. -/
theorem C31_strip_strict_exact (s : List UInt8) (hs : s.length ≤ maxLen) :
    ((∀ c ∈ s, c.toNat ≤ 0x20 ∨ 0x80 ≤ c.toNat) → Str.strip .strict s = .ub .badRange) ∧
    ((∃ c ∈ s, 0x20 < c.toNat ∧ c.toNat < 0x80) → Str.strip .strict s = Str.strip .lenient s) ∧
    (∀ d : UInt8, d ≠ 255 →
      ((∀ c ∈ s, c = d) → Str.strip .strict s (Str.schar d) = .ub .badRange) ∧
      ((∃ c ∈ s, c ≠ d) → Str.strip .strict s (Str.schar d) = Str.strip .lenient s (Str.schar d))) := by
  have all : ∀ {B : UInt8 → Prop} {r : List UInt8}, Stripped B s r → (∀ c ∈ s, B c) → r = [] := by
    rintro B r ⟨p, q, e, -, -, h, -⟩ hB
    cases r with
    | nil => rfl
    | cons c t => exact absurd (hB c (by rw [e]; simp)) (h c t rfl)
  have some' : ∀ {B : UInt8 → Prop} {r : List UInt8}, Stripped B s r → (∃ c ∈ s, ¬ B c) → r ≠ [] := by
    rintro B r ⟨p, q, e, hp, hq, -, -⟩ ⟨c, hc, hB⟩ rfl
    rw [e, List.nil_append, List.mem_append] at hc
    exact hB (hc.elim (hp c) (hq c))
  obtain ⟨⟨r, hr, hR⟩, h2, -⟩ := C31_strip_exact s hs
  refine ⟨fun h => (strip_strict s _).1 (by rw [hr, all hR h]), fun ⟨c, hc, h⟩ => (strip_strict s _).2 ?_, fun d hd => ?_⟩
  · rw [hr]
    exact fun e => some' hR ⟨c, hc, by omega⟩ (Res.ok.inj e)
  · obtain ⟨r, hr, hR⟩ := h2 d hd
    refine ⟨fun h => (strip_strict s _).1 (by rw [hr, all hR h]), fun h => (strip_strict s _).2 ?_⟩
    rw [hr]
    exact fun e => some' hR h (Res.ok.inj e)

/-- The simplest cases: `Str().strip()` and `Str(" ").strip()`. -/
theorem C31_strip_blank_not : Str.strip .strict [] = .ub .badRange ∧ Str.strip .strict [32] = .ub .badRange :=
  ⟨(C31_strip_strict_exact [] (by unfold maxLen; simp)).1 (by simp), (C31_strip_strict_exact [32] (by unfold maxLen; simp)).1 (by simp)⟩

example : ∃ c ∈ ([32, 97] : List UInt8), 0x20 < c.toNat ∧ c.toNat < 0x80 := ⟨97, by simp, by decide⟩

/-- A string of `INT_MAX + 1` characters keeps its leading blanks: its `size()` is negative. -/
theorem C31_strip_long_not : ∃ s : List UInt8, s.length = maxLen + 1 ∧ Str.strip .lenient s = .ok s ∧
    ¬ Stripped (fun c => c.toNat ≤ 0x20) s s := by
  obtain ⟨n, hn⟩ : ∃ n, n = maxLen := ⟨_, rfl⟩
  rw [← hn]
  refine ⟨32 :: List.replicate n 97, by simp, ?_, ?_⟩
  · generalize hs : (32 :: List.replicate n 97 : List UInt8) = s
    have hl : s.length = n + 1 := by rw [← hs]; simp
    have hz : (Str.size s).toNat = 0 := by unfold Str.size wrap32; rw [hl, hn]; unfold maxLen; omega
    have hv : vget s n = .ok 97 := by
      have hn1 : n = (n - 1) + 1 := by rw [hn]; unfold maxLen; omega
      have : s[n]? = some 97 := by
        rw [← hs]
        conv_lhs => rw [hn1]
        rw [List.getElem?_cons_succ, List.getElem?_replicate, if_pos (by omega)]
      rw [vget_ok (by omega)]
      exact congrArg Res.ok (Option.some.inj (by rw [← List.getElem?_eq_getElem, this]))
    have he : Str.stripEnd (-1) s = .ok (s.length : Int) := by
      have hw : wrap32 ((s.length : Int) - 1) = (n : Int) := by unfold wrap32; rw [hl, hn]; unfold maxLen; omega
      unfold Str.stripEnd
      simp only [hw]
      rw [if_pos (by omega), Int.toNat_natCast, Str.stripBack, hv, Res.ok_bind, if_neg (by decide)]
      exact congrArg Res.ok (by rw [hl])
    unfold Str.strip
    simp only [Str.iterSucc]
    rw [hz, Str.stripFront, Res.ok_bind, Lst.stdErase, if_pos ⟨by omega, by omega⟩]
    simp only [List.take_zero, List.nil_append, List.drop_zero, Res.ok_bind]
    rw [he, Res.ok_bind, iter_ok (by omega) (by omega), Res.ok_bind, Int.toNat_natCast, Lst.stdErase, if_pos ⟨by omega, by omega⟩]
    simp
  · rintro ⟨p, q, e, -, -, h, -⟩
    exact h 32 _ rfl (by decide)

example : Str.strip .lenient [32, 9, 97, 32, 98, 10] = .ok [97, 32, 98] := by decide +kernel
example : Str.strip .lenient [45, 97, 45, 45] (Str.schar 45) = .ok [97] := by decide +kernel

/-! ## C32 Erase -/

/-- C32 for `Str`, except `stop < start`. -/
theorem C32_str_erase_partial (s : List UInt8) (hs : s.length < maxLen) (start stop : Int) :
    (0 ≤ start ∧ start ≤ stop ∧ stop ≤ s.length →
      Str.erase s start stop = .ok (s.take start.toNat ++ s.drop stop.toNat)) ∧
    (¬ (0 ≤ start ∧ start ≤ s.length ∧ 0 ≤ stop ∧ stop ≤ s.length) →
      Str.erase s start stop = .throw "Error: Index out of range.") :=
  ⟨fun h => by rw [str_erase_eq, onCopy_run (erase_ok hs h.1 h.2.1 h.2.2)],
   fun h => by rw [str_erase_eq, onCopy_throw (erase_throw hs h)]; rfl⟩

/-- C32 is false of `Str` with `0 <= stop < start <= size` and for a string of `INT_MAX` characters. -/
theorem C32_str_erase_not (s : List UInt8) (start stop : Int) :
    (s.length < maxLen → 0 ≤ stop → stop < start → start ≤ s.length → Str.erase s start stop = .ub .badRange) ∧
    (s.length = maxLen → Str.erase s start stop = .ub .overflow) :=
  ⟨fun h1 h2 h3 h4 => by rw [str_erase_eq, onCopy_ub (erase_backwards h1 h2 h3 h4)],
   fun h => by rw [str_erase_eq, onCopy_ub (erase_max h)]⟩

example : Str.erase [97, 98, 99, 100] 1 3 = .ok [97, 100] := by decide +kernel
example : Str.erase [97, 98, 99, 100] 3 1 = .ub .badRange := by decide +kernel

/-! ## C34 Repetition, concatenation -/

/-- C34 for `Str` where the result has at most `INT_MAX` characters, and for negative counts. -/
theorem C34_str_repeat_partial (s : List UInt8) (hs : s.length ≤ maxLen) (n : Int) :
    (0 ≤ n → s.length * n ≤ INT_MAX → Str.mul s n = .ok (List.replicate n.toNat s).flatten) ∧
    (n < 0 → Str.mul s n = .throw "Error: Times to repeat can not be less than zero.") := by
  refine ⟨fun h0 h1 => str_mul_run hs h0 h1, fun h => ?_⟩
  unfold Str.mul
  rw [if_pos h]

/-- C34 is false of `Str` beyond: the product overflows. -/
theorem C34_str_repeat_not (s : List UInt8) (hs : s.length ≤ maxLen) (n : Int) (h0 : 0 ≤ n) (h : INT_MAX < s.length * n) :
    Str.mul s n = .ub .overflow := by
  unfold Str.mul
  rw [if_neg (by omega), Str.size_eq' hs, imul, ck_ub (by rw [isInt_iff]; unfold INT_MAX at h; omega), Res.ub_bind]

/-- C34 is false: 65536 characters, 65536 times. -/
theorem C34_str_repeat_not_witness : Str.mul (List.replicate 65536 97) 65536 = .ub .overflow :=
  C34_str_repeat_not _ (by rw [List.length_replicate]; unfold maxLen; omega) 65536 (by omega)
    (by rw [List.length_replicate]; unfold INT_MAX; omega)

/-- Concatenation. -/
theorem C34_str_concat (s t : List UInt8) (c : UInt8) : Str.plus s t = s ++ t ∧ Str.plusChar s c = s ++ [c] := ⟨rfl, rfl⟩

example : Str.mul [97, 98] 3 = .ok [97, 98, 97, 98, 97, 98] := by decide +kernel

/-! ## C41 -/

/-- C41 is false of `Str`: `operator+` checks nothing, and the size of a string of 2^31 characters is negative. -/
theorem C41_str_size_not (s t : List UInt8) (h : s.length + t.length = maxLen + 1) :
    Str.size (Str.plus s t) = INT_MIN := by
  unfold Str.size Str.plus wrap32 INT_MIN
  unfold maxLen at h
  rw [List.length_append, h]; norm_num

example : ∃ s t : List UInt8, s.length + t.length = maxLen + 1 :=
  ⟨List.replicate maxLen 97, [97], by rw [List.length_replicate, List.length_singleton]⟩

/-! ## C35 Format -/

/-- C35: `format` yields the formatted text, for every format string and list of argument texts. -/
theorem C35_format (s : List UInt8) (args : List (List UInt8)) : Formatted s args (Str.format s args) := by
  obtain ⟨r, hr, h⟩ := format_fold args [] s
  rw [List.nil_append] at h
  have : Str.format s args = r := h
  rw [this]; exact hr

/-- C35: the specification determines the text. -/
theorem C35_format_unique (s : List UInt8) (args : List (List UInt8)) (r : List UInt8) :
    Formatted s args r ↔ r = Str.format s args :=
  ⟨fun h => h.unique (C35_format s args), fun h => by rw [h]; exact C35_format s args⟩

theorem Formatted.more {t r : List UInt8} {args : List (List UInt8)} (h : Formatted t args r) (more : List (List UInt8))
    (hc : t.count 123 ≤ args.length) : Formatted t (args ++ more) r := by
  induction h with
  | noArgs t =>
    have h0 : 123 ∉ t := List.count_eq_zero.1 (Nat.le_zero.1 hc)
    exact .noGroup t _ (fun a b e => absurd (by rw [e]; simp) h0)
  | noGroup t args h => exact .noGroup t _ h
  | group pre inner rest v r args h1 h2 _ ih =>
    refine .group pre inner rest v r (args ++ more) h1 h2 (ih ?_)
    simp only [List.count_append, List.count_cons, List.length_cons] at hc
    simp at hc
    omega

/-- C35: surplus arguments are ignored. -/
theorem C35_surplus (s : List UInt8) (args more : List (List UInt8)) (h : s.count 123 ≤ args.length) :
    Str.format s (args ++ more) = Str.format s args :=
  ((C35_format_unique s (args ++ more) _).1 ((C35_format s args).more more h)).symm

-- "a{}b{x}c" with "1", "22", "3"
example : Str.format [97, 123, 125, 98, 123, 120, 125, 99] [[49], [50, 50], [51]] = [97, 49, 98, 50, 50, 99] := by decide +kernel
example : Formatted [97, 123, 125, 98] [[49]] [97, 49, 98] := .group [97] [] [98] [49] [98] [] (by decide) (by decide) (.noArgs _)

end Pyincpp
