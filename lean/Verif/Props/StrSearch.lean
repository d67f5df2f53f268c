import Verif.Proof.StrFind

/-! # Property theorems: searching, replacing, splitting strings (C25, C26, C27) -/

namespace Pyincpp
open Lst

/-! ## C25 -/

/-- C25 where the code is defined: `start` is not negative, and not above `stop` unless it is above the size. The result is
the least position in the window at which the pattern occurs entirely, or -1. -/
theorem C25_find_partial (s p : List UInt8) (hs : s.length ≤ maxLen) (start stop : Int) (h0 : 0 ≤ start)
    (h1 : start ≤ stop ∨ (s.length : Int) < start) :
    (∃ i : Nat, Str.find s p start stop = .ok i ∧ (start ≤ i ∧ (i : Int) + p.length ≤ stop ∧ OccursAt s p i) ∧
      ∀ j : Nat, start ≤ j → (j : Int) + p.length ≤ stop → OccursAt s p j → i ≤ j) ∨
    (Str.find s p start stop = .ok (-1) ∧
      ∀ j : Nat, start ≤ j → (j : Int) + p.length ≤ stop → ¬ OccursAt s p j) := by
  by_cases hbig : (s.length : Int) < start
  · right
    constructor
    · unfold Str.find; rw [Str.size_eq' hs, if_pos (by omega)]
    · intro j hj _ ho; have := ho.bound; omega
  · have h1' : start ≤ stop := by omega
    rw [find_run p hs h0 (by omega) h1']
    have hw : start.toNat + ((min stop s.length) - start).toNat ≤ s.length := by omega
    have hsp := search_spec p ((s.drop start.toNat).take ((min stop s.length) - start).toNat)
    have tr : ∀ j : Nat, start ≤ j → (j : Int) + p.length ≤ stop → OccursAt s p j →
        OccursAt ((s.drop start.toNat).take ((min stop s.length) - start).toNat) p (j - start.toNat) := by
      intro j hj hj' ho
      rw [occurs_window hw]
      have := ho.bound
      refine ⟨by omega, ?_⟩
      rw [show start.toNat + (j - start.toNat) = j by omega]; exact ho
    cases h : Str.search p ((s.drop start.toNat).take ((min stop s.length) - start).toNat) with
    | none =>
      rw [h] at hsp
      right
      refine ⟨rfl, fun j hj hj' ho => hsp _ (tr j hj hj' ho)⟩
    | some i =>
      rw [h] at hsp
      left
      have ho := (occurs_window hw).1 hsp.1
      refine ⟨start.toNat + i, ?_, ⟨by omega, by omega, ho.2⟩, ?_⟩
      · exact congrArg Res.ok (by omega)
      · intro j hj hj' hoj
        have := tr j hj hj' hoj
        by_contra hlt
        exact hsp.2 (j - start.toNat) (by omega) this

/-- C25 is false of the code for the remaining arguments: a negative `start`, or `stop < start` with `start` within the
string, builds a view that does not lie in the string. -/
theorem C25_find_not (s p : List UInt8) (hs : s.length ≤ maxLen) (start stop : Int) (hst : IsInt start)
    (h : start < 0 ∨ (start ≤ s.length ∧ stop < start)) : ∃ u, Str.find s p start stop = .ub u := by
  unfold Str.find
  have hs' := hs
  rw [isInt_iff] at hst
  unfold maxLen at hs'
  rw [Str.size_eq' hs, if_neg (by omega)]
  have hm : (if stop > (s.length : Int) then (s.length : Int) else stop) = min stop s.length := by split <;> omega
  simp only [hm]
  by_cases hi : IsInt (min stop s.length - start)
  · rw [isub, ck_ok hi, Res.ok_bind]
    refine ⟨.badRange, ?_⟩
    unfold Str.view
    by_cases h1 : start < 0
    · rw [if_pos (Or.inl h1)]; rfl
    · rw [if_neg (by omega), if_pos (by omega)]; rfl
  · exact ⟨.overflow, by rw [isub, ck_ub hi, Res.ub_bind]⟩

/-- C25 is false: `Str("abc").find("b", 2, 1)` and `Str("abc").find("b", -1)`. -/
theorem C25_find_not_witness : Str.find [97, 98, 99] [98] 2 1 = .ub .badRange ∧ Str.find [97, 98, 99] [98] (-1) = .ub .badRange := by
  decide +kernel

/-- C25: `contains` says whether `find` succeeds. -/
theorem C25_contains_partial (s p : List UInt8) (hs : s.length ≤ maxLen) (start stop : Int) (h0 : 0 ≤ start)
    (h1 : start ≤ stop ∨ (s.length : Int) < start) :
    ∃ b, Str.contains s p start stop = .ok b ∧
      (b = true ↔ ∃ j : Nat, start ≤ j ∧ (j : Int) + p.length ≤ stop ∧ OccursAt s p j) := by
  unfold Str.contains
  rcases C25_find_partial s p hs start stop h0 h1 with ⟨i, e, hi, -⟩ | ⟨e, hn⟩
  · refine ⟨true, ?_, by simp only [true_iff]; exact ⟨i, hi⟩⟩
    rw [e, Res.ok_bind, Res.pure_eq]
    exact congrArg Res.ok (by simp)
  · refine ⟨false, ?_, by simp only [Bool.false_eq_true, false_iff]; rintro ⟨j, h1, h2, h3⟩; exact hn j h1 h2 h3⟩
    rw [e, Res.ok_bind, Res.pure_eq]
    exact congrArg Res.ok (by decide)

/-- C25 without the optional arguments holds for every string and pattern. -/
theorem C25_find_default (s p : List UInt8) (hs : s.length ≤ maxLen) :
    (∃ i : Nat, Str.find s p = .ok i ∧ FirstAt s p i ∧ Str.contains s p = .ok true) ∨
    (Str.find s p = .ok (-1) ∧ (∀ j, ¬ OccursAt s p j) ∧ Str.contains s p = .ok false) := by
  have hs' := hs
  unfold maxLen at hs'
  have hstop : ∀ j : Nat, OccursAt s p j → (j : Int) + p.length ≤ INT_MAX := by
    intro j h; have := h.bound; unfold INT_MAX; omega
  have hle : (0 : Int) ≤ INT_MAX := by decide
  rcases C25_find_partial s p hs 0 INT_MAX (by omega) (Or.inl hle) with ⟨i, e, hi, hmin⟩ | ⟨e, hn⟩
  · left
    refine ⟨i, e, ⟨hi.2.2, fun j hj ho => ?_⟩, ?_⟩
    · have := hmin j (by omega) (hstop j ho) ho; omega
    · unfold Str.contains
      rw [e, Res.ok_bind, Res.pure_eq]
      exact congrArg Res.ok (by simp)
  · right
    refine ⟨e, fun j ho => hn j (by omega) (hstop j ho) ho, ?_⟩
    unfold Str.contains
    rw [e, Res.ok_bind, Res.pure_eq]
    exact congrArg Res.ok (by decide)

-- "abcabc".find("bc", 2, 100) == 4; the window [2, 5) holds no "bc"
example : Str.find [97, 98, 99, 97, 98, 99] [98, 99] 2 100 = .ok 4 := by decide +kernel
example : Str.find [97, 98, 99, 97, 98, 99] [98, 99] 2 5 = .ok (-1) := by decide +kernel
example : Str.find [97, 98, 99, 97, 98, 99] [] 6 = .ok 6 := by decide +kernel
example : OccursAt [97, 98, 99, 97, 98, 99] [98, 99] 4 := ⟨[97, 98, 99, 97], [], rfl, rfl⟩

/-- C25: `starts_with` and `ends_with`. -/
theorem C25_starts_ends (s p : List UInt8) :
    (Str.startsWith s p = true ↔ ∃ t, s = p ++ t) ∧ (Str.endsWith s p = true ↔ ∃ t, s = t ++ p) := by
  unfold Str.startsWith Str.endsWith
  constructor
  · rw [List.isPrefixOf_iff_prefix]
    exact ⟨fun ⟨t, h⟩ => ⟨t, h.symm⟩, fun ⟨t, h⟩ => ⟨t, h.symm⟩⟩
  · rw [List.isSuffixOf_iff_suffix]
    exact ⟨fun ⟨t, h⟩ => ⟨t, h.symm⟩, fun ⟨t, h⟩ => ⟨t, h.symm⟩⟩

example : Str.startsWith [97, 98] [97] = true ∧ Str.endsWith [97, 98] [97] = false := by decide

/-! ## C26 -/

/-- The greedy scan exists and is unique. -/
theorem C26_scan (s p : List UInt8) (hp : p ≠ []) : ∃! ps, Scan p s ps := by
  obtain ⟨ps, h⟩ := scan_exists hp s
  exact ⟨ps, h, fun _ h' => h'.unique h⟩

/-- C26: `count` is the number of occurrences that the greedy scan meets. -/
theorem C26_count (s p : List UInt8) (hs : s.length ≤ maxLen) (hp : p ≠ []) (ps : List (List UInt8)) (h : Scan p s ps) :
    Returns (fun k => Str.count k s p) ((ps.length : Int) - 1) := by
  refine ⟨ps.length, fun k hk => ?_⟩
  have he : Str.isEmpty p = false := by simp [Str.isEmpty, hp]
  unfold Str.count
  beta_reduce
  rw [he, if_neg (by simp)]
  have := countLoop_run h [] k 0 (by simpa using hs) (by simp) hp hk
  simp only [List.nil_append, List.length_nil, Nat.cast_zero, zero_add] at this
  exact this

/-- C26: `replace` rewrites exactly those occurrences. -/
theorem C26_replace (s p q : List UInt8) (hs : s.length ≤ maxLen) (hp : p ≠ []) (ps : List (List UInt8)) (h : Scan p s ps) :
    glue p ps = s ∧ Returns (fun k => Str.replace k s p q) (glue q ps) := by
  refine ⟨h.glue, ps.length, fun k hk => ?_⟩
  have he : Str.isEmpty p = false := by simp [Str.isEmpty, hp]
  unfold Str.replace
  beta_reduce
  rw [he, if_neg (by simp)]
  have := replaceLoop_run (q := q) h [] k [] (by simpa using hs) hp hk
  simp only [List.nil_append, List.length_nil, Nat.cast_zero] at this
  exact this

/-- C26: the length after `replace`. -/
theorem C26_replace_length (s p q : List UInt8) (hs : s.length ≤ maxLen) (hp : p ≠ []) :
    ∃ (c : Int) (r : List UInt8), Returns (fun k => Str.count k s p) c ∧ Returns (fun k => Str.replace k s p q) r ∧ 0 ≤ c ∧
      (r.length : Int) = s.length + c * (q.length - p.length) := by
  obtain ⟨ps, h⟩ := scan_exists hp s
  have hne := h.ne_nil
  refine ⟨(ps.length : Int) - 1, glue q ps, C26_count s p hs hp ps h, (C26_replace s p q hs hp ps h).2, ?_, ?_⟩
  · have := List.length_pos_iff.2 hne; omega
  · have h1 := glue_length q ps hne
    have h2 := glue_length p ps hne
    rw [h.glue] at h2
    rw [h1, h2]; ring

/-- C26: replacing a pattern by itself changes nothing. -/
theorem C26_replace_self (s p : List UInt8) (hs : s.length ≤ maxLen) (hp : p ≠ []) :
    Returns (fun k => Str.replace k s p p) s := by
  obtain ⟨ps, h⟩ := scan_exists hp s
  have := (C26_replace s p p hs hp ps h).2
  rwa [h.glue] at this

/-- C26: the empty pattern, where the code agrees: the size is below `INT_MAX` (`count`), the new text has no NUL byte
(`replace`). -/
theorem C26_empty_partial (k : Nat) (s q : List UInt8) :
    (s.length < maxLen → Str.count k s [] = .ok (s.length + 1)) ∧
    ((∀ c ∈ q, c ≠ 0) → Str.replace k s [] q = .ok (q ++ s.flatMap (fun c => c :: q))) := by
  constructor
  · intro hs
    unfold Str.count
    have hs' := hs
    unfold maxLen at hs'
    rw [Str.size_eq' (by omega), if_pos (by rfl), iadd_ok (by rw [isInt_iff]; omega)]
  · intro hq
    unfold Str.replace
    rw [if_pos (by rfl), Res.pure_eq]
    have : q.takeWhile (· != 0) = q := by
      have := List.takeWhile_append_of_pos (p := (· != 0)) (l₁ := q) (l₂ := []) (fun c hc => by simpa using hq c hc)
      simpa using this
    rw [this]

/-- C26, the empty pattern, exactly: `replace` inserts the new text around every character if it has no NUL byte or there is no character. -/
theorem C26_replace_empty_iff (k : Nat) (s q : List UInt8) :
    Str.replace k s [] q = .ok (q ++ s.flatMap (fun c => c :: q)) ↔ s = [] ∨ ∀ c ∈ q, c ≠ 0 := by
  constructor
  · intro h
    by_cases hs : s = []
    · exact Or.inl hs
    · right
      unfold Str.replace at h
      rw [if_pos (by rfl), Res.pure_eq, Res.ok.injEq] at h
      have h1 := congrArg List.length (List.append_cancel_left h)
      have hl : ∀ r : List UInt8, (s.flatMap (fun c => c :: r)).length = s.length * (r.length + 1) := by
        intro r
        induction s with
        | nil => simp
        | cons a s ih =>
          by_cases h0 : s = []
          · simp [h0]
          · simp [List.flatMap_cons, Nat.succ_mul]
            omega
      rw [hl, hl] at h1
      have h2 : (q.takeWhile (· != 0)).length = q.length := by
        have := Nat.eq_of_mul_eq_mul_left (List.length_pos_iff.2 hs) h1
        omega
      have h3 : q.takeWhile (· != 0) = q := (List.takeWhile_prefix _).eq_of_length h2
      intro c hc
      rw [← h3] at hc
      simpa using List.all_eq_true.1 List.all_takeWhile c hc
  · rintro (rfl | h)
    · unfold Str.replace
      rw [if_pos (by rfl)]
      simp
    · exact (C26_empty_partial k s q).2 h

/-- C26 is false of the code for the empty pattern otherwise: `count("")` of `INT_MAX` characters overflows, and
`replace("", "x\0")` inserts `x` without the NUL after each character. -/
theorem C26_empty_not (k : Nat) (s : List UInt8) :
    (s.length = maxLen → Str.count k s [] = .ub .overflow) ∧
    Str.replace k [97, 98] [] [120, 0] = .ok [120, 0, 97, 120, 98, 120] := by
  constructor
  · intro hs
    unfold Str.count
    have hs' := hs
    unfold maxLen at hs'
    rw [Str.size_eq' (by omega), if_pos (by rfl), iadd, ck_ub (by rw [isInt_iff]; omega)]
  · rfl

-- "aaaa": the scan for "aa" meets two occurrences (not three)
example : Scan [97, 97] [97, 97, 97, 97] [[], [], []] :=
  .step [] [97, 97] [[], []] ⟨⟨[], [97, 97], rfl, rfl⟩, by simp⟩
    (.step [] [] [[]] ⟨⟨[], [], rfl, rfl⟩, by simp⟩ (.done [] (fun i h => by have := h.bound; simp at this)))
example : Str.count 10 [97, 97, 97, 97, 97] [97, 97] = .ok 2 := by decide +kernel
example : Str.replace 10 [97, 97, 97, 97, 97] [97, 97] [98] = .ok [98, 98, 97] := by decide +kernel

/-! ## C27 -/

/-- C27: an empty separator throws. -/
theorem C27_split_empty (k : Nat) (s : List UInt8) (keep : Bool) : Str.split k s [] keep = .throw "Error: Empty separator." := rfl

theorem split_run (s sep : List UInt8) (keep : Bool) (hs : s.length ≤ maxLen) (hp : sep ≠ []) (ps : List (List UInt8))
    (h : Scan sep s ps) (k : Nat) (hk : ps.length ≤ k) :
    Str.split k s sep keep = fitted (ps.filter (fun a => keep || !a.isEmpty)) := by
  have he : Str.isEmpty sep = false := by simp [Str.isEmpty, hp]
  unfold Str.split
  rw [he, if_neg (by simp)]
  have := splitLoop_run (keep := keep) h [] k [] (by simpa using hs) (by simp) hp hk
  simp only [List.nil_append, List.length_nil, Nat.cast_zero] at this
  exact this

/-- C27 for strings shorter than `INT_MAX`: `split(sep, true)` gives the pieces between the occurrences of `sep`; joining them
gives the string back; no piece contains `sep`; there is one more than `count`; without `keep_empty` the empty pieces are
left out. -/
theorem C27_split_join_partial (s sep : List UInt8) (hs : s.length < maxLen) (hp : sep ≠ []) :
    ∃ ps : List (List UInt8),
      Returns (fun k => Str.split k s sep true) ps ∧
      Str.join sep ps = .ok s ∧
      (∀ a ∈ ps, ∀ i, ¬ OccursAt a sep i) ∧
      Returns (fun k => Str.count k s sep) ((ps.length : Int) - 1) ∧
      Returns (fun k => Str.split k s sep) (ps.filter (fun a => !a.isEmpty)) := by
  obtain ⟨ps, h⟩ := scan_exists hp s
  have hlen : ps.length ≤ maxLen := by have := h.length_le hp; omega
  refine ⟨ps, ⟨ps.length, fun k hk => ?_⟩, ?_, h.no_piece hp, C26_count s sep (by omega) hp ps h, ⟨ps.length, fun k hk => ?_⟩⟩
  · beta_reduce
    rw [split_run s sep true (by omega) hp ps h k hk]
    have e : ps.filter (fun a => true || !a.isEmpty) = ps := by simp
    rw [e, fitted, if_pos hlen]
  · rw [join_run sep ps hlen, h.glue]
  · beta_reduce
    rw [split_run s sep false (by omega) hp ps h k hk]
    have e : ps.filter (fun a => false || !a.isEmpty) = ps.filter (fun a => !a.isEmpty) := by simp
    rw [e, fitted, if_pos]
    exact Nat.le_trans (List.length_filter_le ..) hlen

/-- The scan of `c…c` for `c`. -/
theorem scan_replicate (c : UInt8) (n : Nat) : Scan [c] (List.replicate n c) (List.replicate (n + 1) []) := by
  induction n with
  | zero => exact .done [] (fun i h => by have := h.bound; simp at this)
  | succ n ih =>
    have : List.replicate (n + 1) c = [] ++ [c] ++ List.replicate n c := rfl
    rw [this]
    exact .step [] _ _ ⟨⟨[], List.replicate n c, rfl, rfl⟩, by simp⟩ ih

/-- C27 is false of the code for a string of `INT_MAX` separators: its `INT_MAX + 1` pieces do not fit a `List`, and
`split(sep, true)` throws. -/
theorem C27_split_not (c : UInt8) :
    Throws (fun k => Str.split k (List.replicate maxLen c) [c] true) "Error: The container has reached the maximum size." := by
  refine ⟨(List.replicate (maxLen + 1) ([] : List UInt8)).length, fun k hk => ?_⟩
  beta_reduce
  rw [split_run _ [c] true (by rw [List.length_replicate]) (by simp) _ (scan_replicate c maxLen) k hk]
  generalize hn : maxLen = n
  have e : (List.replicate (n + 1) ([] : List UInt8)).filter (fun a => true || !a.isEmpty) = List.replicate (n + 1) [] := by simp
  rw [e, fitted, if_neg (by rw [List.length_replicate, hn]; omega), msgFull]

/-- As many pieces as there can be: the string consists of separators of one byte. -/
theorem Scan.full {p t : List UInt8} {ps : List (List UInt8)} (h : Scan p t ps) (hp : p ≠ []) (hl : ps.length = t.length + 1) (ht : t ≠ []) :
    ∃ c, p = [c] ∧ t = List.replicate t.length c := by
  have hpl : 0 < p.length := List.length_pos_iff.2 hp
  induction h with
  | done t hn =>
    exfalso
    apply ht
    simpa using hl
  | step a t ps hf hsc ih =>
    have h1 := hsc.length_le hp
    simp only [List.length_cons, List.length_append] at hl
    obtain rfl : a = [] := List.eq_nil_of_length_eq_zero (by omega)
    obtain ⟨c, rfl⟩ := List.length_eq_one_iff.mp (show p.length = 1 by omega)
    refine ⟨c, rfl, ?_⟩
    by_cases h0 : t = []
    · simp [h0]
    · obtain ⟨d, hd, ht'⟩ := ih (by simp at hl; omega) h0
      obtain rfl : c = d := by simpa using hd
      simp only [List.nil_append, List.cons_append, List.length_cons, List.replicate_succ, List.cons.injEq, true_and]
      exact ht'

/-- C27, every string whose length fits `int`: the property holds unless the string consists of `INT_MAX` separators of one byte; of these `split(sep, true)`
throws, while `split(sep)` returns the empty list. -/
theorem C27_split_exact (s sep : List UInt8) (hs : s.length ≤ maxLen) (hp : sep ≠ []) :
    ((¬ ∃ c, sep = [c] ∧ s = List.replicate maxLen c) → ∃ ps : List (List UInt8),
      Returns (fun k => Str.split k s sep true) ps ∧
      Str.join sep ps = .ok s ∧
      (∀ a ∈ ps, ∀ i, ¬ OccursAt a sep i) ∧
      Returns (fun k => Str.count k s sep) ((ps.length : Int) - 1) ∧
      Returns (fun k => Str.split k s sep) (ps.filter (fun a => !a.isEmpty))) ∧
    ((∃ c, sep = [c] ∧ s = List.replicate maxLen c) →
      Throws (fun k => Str.split k s sep true) "Error: The container has reached the maximum size." ∧
      Returns (fun k => Str.split k s sep) []) := by
  constructor
  · intro hc
    by_cases hlt : s.length < maxLen
    · exact C27_split_join_partial s sep hlt hp
    · obtain ⟨ps, h⟩ := scan_exists hp s
      have he : s.length = maxLen := by omega
      have hlen : ps.length ≤ maxLen := by
        have h1 := h.length_le hp
        by_contra hgt
        obtain ⟨c, h2, h3⟩ := h.full hp (by omega) (by rintro rfl; rw [List.length_nil, maxLen] at he; omega)
        rw [he] at h3
        exact hc ⟨c, h2, h3⟩
      refine ⟨ps, ⟨ps.length, fun k hk => ?_⟩, ?_, h.no_piece hp, C26_count s sep (by omega) hp ps h, ⟨ps.length, fun k hk => ?_⟩⟩
      · beta_reduce
        rw [split_run s sep true (by omega) hp ps h k hk]
        have e : ps.filter (fun a => true || !a.isEmpty) = ps := by simp
        rw [e, fitted, if_pos hlen]
      · rw [join_run sep ps hlen, h.glue]
      · beta_reduce
        rw [split_run s sep false (by omega) hp ps h k hk]
        have e : ps.filter (fun a => false || !a.isEmpty) = ps.filter (fun a => !a.isEmpty) := by simp
        rw [e, fitted, if_pos]
        exact Nat.le_trans (List.length_filter_le ..) hlen
  · rintro ⟨c, rfl, rfl⟩
    refine ⟨C27_split_not c, ⟨(List.replicate (maxLen + 1) ([] : List UInt8)).length, fun k hk => ?_⟩⟩
    beta_reduce
    rw [split_run _ [c] false (by rw [List.length_replicate]) (by simp) _ (scan_replicate c maxLen) k hk]
    generalize maxLen = n
    have e : (List.replicate (n + 1) ([] : List UInt8)).filter (fun a => false || !a.isEmpty) = [] := by simp
    rw [e]
    rfl

example : ¬ ∃ c : UInt8, ([44] : List UInt8) = [c] ∧ ([97, 44, 98] : List UInt8) = List.replicate maxLen c := by
  rintro ⟨c, -, h⟩
  have := congrArg List.length h
  rw [List.length_replicate] at this
  exact absurd this (by unfold maxLen; decide)

/-- C27: joining pieces and splitting again gives the pieces back, when they contain no character of the separator's first
and only byte. -/
theorem C27_join_split (c : UInt8) (ps : List (List UInt8)) (hne : ps ≠ []) (hc : ∀ a ∈ ps, c ∉ a)
    (hlen : (glue [c] ps).length < maxLen) (hlen' : ps.length ≤ maxLen) :
    ∃ s, Str.join [c] ps = .ok s ∧ Returns (fun k => Str.split k s [c] true) ps := by
  have occ : ∀ (a : List UInt8) i, OccursAt a [c] i → c ∈ a := by
    rintro a i ⟨x, y, rfl, -⟩; simp
  have hscan : ∀ ps : List (List UInt8), ps ≠ [] → (∀ a ∈ ps, c ∉ a) → Scan [c] (glue [c] ps) ps := by
    intro ps
    induction ps with
    | nil => intro h; exact absurd rfl h
    | cons a ps ih =>
      intro _ hc
      cases ps with
      | nil => exact .done a (fun i h => hc a (by simp) (occ a i h))
      | cons b ps =>
        rw [glue]
        refine .step a _ _ ⟨⟨a, _, rfl, rfl⟩, ?_⟩ (ih (by simp) (fun x hx => hc x (by simp [hx])))
        rintro j hj ⟨x, y, e, hx⟩
        apply hc a (by simp)
        have h1 : (a ++ [c] ++ glue [c] (b :: ps))[j]? = some c := by
          rw [e, List.append_assoc, List.getElem?_append_right (by omega), hx]; simp
        rw [List.append_assoc, List.getElem?_append_left hj] at h1
        exact List.mem_of_getElem? h1
  refine ⟨glue [c] ps, join_run [c] ps hlen', ps.length, fun k hk => ?_⟩
  beta_reduce
  rw [split_run _ [c] true (by omega) (by simp) ps (hscan ps hne hc) k hk]
  have e : ps.filter (fun a => true || !a.isEmpty) = ps := by simp
  rw [e, fitted, if_pos hlen']

/-- C27: `join` of any list. -/
theorem C27_join (s : List UInt8) (l : List (List UInt8)) (hl : l.length ≤ maxLen) : Str.join s l = .ok (glue s l) := join_run s l hl

example : Str.split 10 [44, 97, 44, 44, 98] [44] true = .ok [[], [97], [], [98]] := by decide +kernel
example : Str.split 10 [44, 97, 44, 44, 98] [44] = .ok [[97], [98]] := by decide +kernel
example : Str.join [44] [[], [97], [], [98]] = .ok [44, 97, 44, 44, 98] := by decide +kernel
example : ([[97], []] : List (List UInt8)) ≠ [] ∧ ∀ a ∈ ([[97], []] : List (List UInt8)), (44 : UInt8) ∉ a := by decide

end Pyincpp
