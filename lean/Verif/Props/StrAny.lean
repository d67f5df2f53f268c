import Verif.Props.ListAny
import Verif.Props.StrSearch
import Verif.Props.StrSeq
import Verif.Props.StrNum

/-! # Strings of any size (C23–C29, C31–C34)

Nothing keeps a `Str` from having more than `INT_MAX` characters, and `size()` is their number cut to 32 bits. The theorems here have no bound on the number of
characters. Most functions then look at the first `size()` characters only, and find nothing if `size()` is negative; those that fill a buffer of `size()` characters
write beyond it. -/

namespace Pyincpp

open Lst

theorem Str.size_shown (s : List UInt8) : Str.size s = shown s.length := (shown_eq_wrap _).symm

/-! ## A string whose `size()` is `n`, which is not negative -/

section first
variable {s : List UInt8} {n : ℕ}

theorem Str.size_take (hn : n ≤ s.length) (hm : n ≤ maxLen) : Str.size (s.take n) = n := by
  rw [Str.size_eq' (by rw [List.length_take]; omega), List.length_take, Nat.min_eq_left hn]

theorem charAt_take (hn : n ≤ s.length) (i : Int) (h : i < n) : Str.charAt (s.take n) i = Str.charAt s i := by
  have hlen : (s.take n).length = n := by rw [List.length_take, Nat.min_eq_left hn]
  have h1 : ¬ i = ((s.take n).length : Int) := by rw [hlen]; omega
  have h2 : ¬ i = (s.length : Int) := by omega
  unfold Str.charAt
  rw [if_neg h1, if_neg h2]
  split
  · unfold vget
    rw [List.getElem?_take_of_lt (by omega)]
  · rfl

theorem str_get_take (hs : Str.size s = n) (hn : n ≤ s.length) (hm : n ≤ maxLen) (i : Int) : Str.get s i = Str.get (s.take n) i := by
  unfold Str.get
  rw [Str.size_take hn hm, hs]
  unfold maxLen at hm
  have e1 : ineg (n : Int) = .ok (-(n : Int)) := ineg_ok (by rw [isInt_iff]; omega)
  simp only [e1, Res.ok_bind]
  by_cases hb : -(n : Int) ≤ i ∧ i < n
  · rw [checkBounds_ok hb]
    simp only [Res.ok_bind]
    by_cases h0 : i ≥ 0
    · simp only [if_pos h0, Res.pure_eq, Res.ok_bind]
      exact (charAt_take hn i hb.2).symm
    · have e2 : iadd i (n : Int) = .ok (i + n) := iadd_ok (by rw [isInt_iff]; omega)
      simp only [if_neg h0, e2, Res.ok_bind]
      exact (charAt_take hn _ (by omega)).symm
  · rw [checkBounds_throw hb]
    simp only [Res.throw_bind]

theorem str_sliceLoop_take (hn : n ≤ s.length) (stop step : Int) (hz : step ≠ 0) : ∀ (k : ℕ) (i : Int) (b : List UInt8), (0 < step → stop ≤ n) →
    (step < 0 → i < n) → Str.sliceLoop (s.take n) stop step k i b = Str.sliceLoop s stop step k i b := by
  intro k
  induction k with
  | zero => intros; rfl
  | succ k ih =>
    intro i b h1 h2
    rw [Str.sliceLoop, Str.sliceLoop]
    by_cases hc : (if step > 0 then i < stop else i > stop)
    · rw [if_pos hc, if_pos hc]
      have hi : i < n := by
        split at hc
        · next h => have := h1 h; omega
        · next h => exact h2 (by omega)
      rw [charAt_take hn i hi]
      congr 1
      funext x
      cases ha : iadd i step with
      | ok j =>
        have hj : j = i + step := by
          unfold iadd ck at ha
          split at ha
          · injection ha with ha; exact ha.symm
          · cases ha
        simp only [Res.ok_bind]
        exact ih j _ h1 (fun h => by have := h2 h; omega)
      | throw m => rfl
      | ub u => rfl
      | fuel => rfl
    · rw [if_neg hc, if_neg hc]

theorem str_slice_take (hs : Str.size s = n) (hn : n ≤ s.length) (hm : n ≤ maxLen) (k : ℕ) (start stop step : Int) :
    Str.slice k s start stop step = Str.slice k (s.take n) start stop step := by
  have hs' := Str.size_take hn hm
  unfold maxLen at hm
  unfold Str.slice
  by_cases hz : step = 0
  · rw [if_pos hz, if_pos hz]
  · rw [if_neg hz, if_neg hz]
    have hf : ∀ i, Str.fromEnd (s.take n) i = Str.fromEnd s i := by intro i; unfold Str.fromEnd; rw [hs, hs']
    simp only [hs, hs', hf]
    have neg : ineg (n : Int) = .ok (-(n : Int)) := ineg_ok (by rw [isInt_iff]; omega)
    rw [neg]
    simp only [Res.ok_bind]
    by_cases hb : -(n : Int) ≤ start ∧ start < n
    · rw [checkBounds_ok hb]
      simp only [Res.ok_bind]
      have e1 : isub (-(n : Int)) 1 = .ok (-(n : Int) - 1) := isub_ok (by rw [isInt_iff]; omega)
      rw [e1]
      simp only [Res.ok_bind]
      by_cases hi : IsInt ((n : Int) + 1)
      · rw [iadd_ok hi]
        simp only [Res.ok_bind]
        by_cases hb' : -(n : Int) - 1 ≤ stop ∧ stop < n + 1
        · rw [checkBounds_ok hb']
          simp only [Res.ok_bind]
          have f1 : ∃ a, Str.fromEnd s start = .ok a ∧ a < n := by
            unfold Str.fromEnd
            rw [hs]
            split
            · exact ⟨_, iadd_ok (by rw [isInt_iff]; omega), by omega⟩
            · exact ⟨_, rfl, hb.2⟩
          have f2 : ∃ a, Str.fromEnd s stop = .ok a ∧ a ≤ n := by
            unfold Str.fromEnd
            rw [hs]
            split
            · exact ⟨_, iadd_ok (by rw [isInt_iff]; omega), by omega⟩
            · exact ⟨_, rfl, by omega⟩
          obtain ⟨a, fa, ha⟩ := f1
          obtain ⟨b, fb, hb2⟩ := f2
          rw [fa, fb]
          simp only [Res.ok_bind]
          exact (str_sliceLoop_take hn b step hz k a [] (fun _ => by omega) (fun _ => by omega)).symm
        · rw [checkBounds_throw hb']; simp only [Res.throw_bind]
      · have e2 : iadd (n : Int) 1 = .ub .overflow := ck_ub hi
        rw [e2]; rfl
    · rw [checkBounds_throw hb]; simp only [Res.throw_bind]

theorem view_take (hn : n ≤ s.length) (start m : Int) (hs : start ≤ n) (h : start + m ≤ n) : Str.view (s.take n) start m = Str.view s start m := by
  have hlen : (s.take n).length = n := by rw [List.length_take, Nat.min_eq_left hn]
  by_cases h0 : start < 0
  · unfold Str.view
    rw [if_pos (Or.inl h0), if_pos (Or.inl h0)]
  · have c1 : ¬ (start < 0 ∨ start > ((s.take n).length : Int)) := by rw [hlen]; omega
    have c2 : ¬ (start < 0 ∨ start > (s.length : Int)) := by omega
    unfold Str.view
    rw [if_neg c1, if_neg c2]
    by_cases h1 : m < 0
    · rw [if_pos (Or.inl h1), if_pos (Or.inl h1)]
    · have d1 : ¬ (m < 0 ∨ start + m > ((s.take n).length : Int)) := by rw [hlen]; omega
      have d2 : ¬ (m < 0 ∨ start + m > (s.length : Int)) := by omega
      rw [if_neg d1, if_neg d2, List.drop_take, List.take_take, Nat.min_eq_left (by omega)]

theorem str_find_take (hs : Str.size s = n) (hn : n ≤ s.length) (hm : n ≤ maxLen) (p : List UInt8) (start stop : Int) :
    Str.find s p start stop = Str.find (s.take n) p start stop := by
  unfold Str.find
  rw [Str.size_take hn hm, hs]
  by_cases h0 : start > n
  · rw [if_pos h0, if_pos h0]
  · rw [if_neg h0, if_neg h0]
    have hst : (if stop > (n : Int) then (n : Int) else stop) ≤ n := by split <;> omega
    generalize (if stop > (n : Int) then (n : Int) else stop) = t at *
    simp only
    cases hd : isub t start with
    | ok m =>
      have hj : m = t - start := by
        unfold isub ck at hd
        by_cases hi : IsInt (t - start)
        · rw [if_pos hi] at hd; exact (Res.ok.inj hd).symm
        · rw [if_neg hi] at hd; cases hd
      simp only [Res.ok_bind]
      rw [view_take hn start m (by omega) (by omega)]
    | throw e => rfl
    | ub u => rfl
    | fuel => rfl

theorem str_countLoop_take (hs : Str.size s = n) (hn : n ≤ s.length) (hm : n ≤ maxLen) (p : List UInt8) : ∀ (k : ℕ) (i c : Int),
    Str.countLoop s p k i c = Str.countLoop (s.take n) p k i c := by
  intro k
  induction k with
  | zero => intros; rfl
  | succ k ih =>
    intro i c
    rw [Str.countLoop, Str.countLoop, str_find_take hs hn hm]
    simp only [ih]


/-! ## The scan of the first characters -/

/-- `replace` where `r` follows the characters that are looked at. -/
theorem replaceLoop_any {p q t : List UInt8} {ps : List (List UInt8)} (h : Scan p t ps) (r : List UInt8) :
    ∀ (d : List UInt8) (k : Nat) (buf : List UInt8), Str.size (d ++ t ++ r) = (d ++ t).length → (d ++ t).length ≤ maxLen → p ≠ [] → ps.length ≤ k →
      (do let (a, b) ← Str.replaceLoop (d ++ t ++ r) p q k d.length buf
          let sub ← Str.substr (d ++ t ++ r) a (-1)
          pure (b ++ sub)) = Res.ok (buf ++ glue q ps ++ r) := by
  induction h with
  | done t hn =>
    intro d k buf hz hs hp hk
    obtain ⟨k, rfl⟩ : ∃ j, k = j + 1 := ⟨k - 1, by simp at hk; omega⟩
    have ht : (d ++ t ++ r).take (d ++ t).length = d ++ t := List.take_left
    rw [Str.replaceLoop, str_find_take hz (by simp) hs, ht, find_scan_done hs hn, List.append_assoc d t r]
    simp only [Res.ok_bind, if_true, Res.pure_eq, substr_end, glue, List.append_assoc]
  | step a t ps hf hsc ih =>
    intro d k buf hz hs hp hk
    have hpl : 0 < p.length := List.length_pos_iff.2 hp
    obtain ⟨k, rfl⟩ : ∃ j, k = j + 1 := ⟨k - 1, by simp at hk; omega⟩
    have hlen : (d ++ (a ++ p ++ t)).length = d.length + (a.length + p.length + t.length) := by simp; omega
    have ht : (d ++ (a ++ p ++ t) ++ r).take (d ++ (a ++ p ++ t)).length = d ++ (a ++ p ++ t) := List.take_left
    rw [Str.replaceLoop, str_find_take hz (by simp) hs, ht, find_scan_step hs hf]
    simp only [Res.ok_bind]
    have hsz : Str.size p = p.length := Str.size_eq' (by omega)
    have e0 : ((d.length : Int) + a.length - d.length) = a.length := by omega
    have e1 : Str.substr (d ++ (a ++ p ++ t) ++ r) d.length a.length = .ok a := by
      rw [List.append_assoc d, List.append_assoc a p t, List.append_assoc a]; exact substr_mid
    have hs' := hs
    unfold maxLen at hs
    rw [if_neg (by omega), hsz, isub_ok (by rw [isInt_iff]; omega), Res.ok_bind, e0, e1, Res.ok_bind,
      iadd_ok (by rw [isInt_iff]; omega), Res.ok_bind]
    have e : d ++ (a ++ p ++ t) = (d ++ a ++ p) ++ t := by simp [List.append_assoc]
    have e2 : ((d.length : Int) + a.length + p.length) = (((d ++ a ++ p).length : Nat) : Int) := by simp; omega
    have := ih (d ++ a ++ p) k (buf ++ (a ++ q)) (by rw [← e]; exact hz) (by rw [← e]; exact hs') hp (by simp at hk; omega)
    rw [e, e2, this]
    cases ps with
    | nil => exact absurd rfl hsc.ne_nil
    | cons b ps => simp [glue, List.append_assoc]

/-- The pieces that `split` keeps where `r` follows the characters that are looked at: the last piece is kept or not as it stands, and taken together with `r`. -/
def pieces (keep : Bool) (r : List UInt8) : List (List UInt8) → List (List UInt8)
  | [] => []
  | [a] => if keep || !a.isEmpty then [a ++ r] else []
  | a :: b :: ps => if keep || !a.isEmpty then a :: pieces keep r (b :: ps) else pieces keep r (b :: ps)

theorem splitLoop_any {p t : List UInt8} {keep : Bool} {ps : List (List UInt8)} (h : Scan p t ps) (r : List UInt8) :
    ∀ (d : List UInt8) (k : Nat) (acc : List (List UInt8)), Str.size (d ++ t ++ r) = (d ++ t).length → (d ++ t).length ≤ maxLen →
      acc.length ≤ d.length → p ≠ [] → ps.length ≤ k →
      (do let (a, b) ← Str.splitLoop (d ++ t ++ r) p keep k d.length acc
          if keep || a != Str.size (d ++ t ++ r) then do
            let sub ← Str.substr (d ++ t ++ r) a (-1)
            Lst.onCopy (Lst.append sub) b
          else pure b) = fitted (acc ++ pieces keep r ps) := by
  induction h with
  | done t hn =>
    intro d k acc hz hs hacc hp hk
    obtain ⟨k, rfl⟩ : ∃ j, k = j + 1 := ⟨k - 1, by simp at hk; omega⟩
    have hlen : (d ++ t).length = d.length + t.length := by simp
    have ht : (d ++ t ++ r).take (d ++ t).length = d ++ t := List.take_left
    rw [Str.splitLoop, str_find_take hz (by simp) hs, ht, find_scan_done hs hn]
    simp only [Res.ok_bind, if_true, Res.pure_eq]
    rw [hz, List.append_assoc d t r, substr_end, Res.ok_bind, hlen]
    by_cases h0 : t = []
    · subst h0
      cases keep
      · simp [fitted, pieces]; omega
      · simp only [Bool.true_or, if_true, append_fitted _ acc (show acc.length ≤ maxLen by omega)]; simp [pieces]
    · have : ((d.length : Int) != ((d.length + t.length : Nat) : Int)) = true := by
        have := List.length_pos_iff.2 h0
        simp; exact h0
      have hte : t.isEmpty = false := by simp [h0]
      simp only [this, Bool.or_true, if_true, append_fitted _ acc (show acc.length ≤ maxLen by omega)]
      simp [pieces, hte]
  | step a t ps hf hsc ih =>
    intro d k acc hz hs hacc hp hk
    have hpl : 0 < p.length := List.length_pos_iff.2 hp
    obtain ⟨k, rfl⟩ : ∃ j, k = j + 1 := ⟨k - 1, by simp at hk; omega⟩
    have hlen : (d ++ (a ++ p ++ t)).length = d.length + (a.length + p.length + t.length) := by simp; omega
    have ht : (d ++ (a ++ p ++ t) ++ r).take (d ++ (a ++ p ++ t)).length = d ++ (a ++ p ++ t) := List.take_left
    rw [Str.splitLoop, str_find_take hz (by simp) hs, ht, find_scan_step hs hf]
    simp only [Res.ok_bind]
    have hsz : Str.size p = p.length := Str.size_eq' (by omega)
    have e0 : ((d.length : Int) + a.length - d.length) = a.length := by omega
    have e1 : Str.substr (d ++ (a ++ p ++ t) ++ r) d.length a.length = .ok a := by
      rw [List.append_assoc d, List.append_assoc a p t, List.append_assoc a]; exact substr_mid
    have e : d ++ (a ++ p ++ t) = (d ++ a ++ p) ++ t := by simp [List.append_assoc]
    have e2 : ((d.length : Int) + a.length + p.length) = (((d ++ a ++ p).length : Nat) : Int) := by simp; omega
    have hi1 : iadd ((d.length : Int) + a.length) p.length = .ok ((d.length : Int) + a.length + p.length) :=
      iadd_ok (by rw [isInt_iff]; unfold maxLen at hs; omega)
    have hi2 : isub ((d.length : Int) + a.length) d.length = .ok (a.length : Int) := by
      rw [isub_ok (by rw [isInt_iff]; unfold maxLen at hs; omega), e0]
    have hps : ∀ x, pieces keep r (x :: ps) = if keep || !x.isEmpty then x :: pieces keep r ps else pieces keep r ps := by
      intro x
      cases ps with
      | nil => exact absurd rfl hsc.ne_nil
      | cons b ps => rfl
    have c0 : ¬ ((d.length : Int) + a.length = -1) := by clear hz hs; omega
    rw [if_neg c0, hsz, hps]
    by_cases hskip : keep = false ∧ a = []
    · obtain ⟨rfl, rfl⟩ := hskip
      rw [if_pos (by simp)]
      rw [hi1, Res.ok_bind]
      have := ih (d ++ [] ++ p) k acc (by rw [← e]; exact hz) (by rw [← e]; exact hs) (by clear hz hs; simp; omega) hp (by clear hz hs; simp at hk; omega)
      rw [e, e2, this]
      simp
    · rw [if_neg]
      · rw [hi2, Res.ok_bind, e1, Res.ok_bind, onCopy_run (append_ok (e := a) (l := acc) (by clear hz; omega)), Res.ok_bind, hi1, Res.ok_bind]
        have := ih (d ++ a ++ p) k (acc ++ [a]) (by rw [← e]; exact hz) (by rw [← e]; exact hs) (by clear hz hs; simp; omega) hp (by clear hz hs; simp at hk; omega)
        rw [e, e2, this]
        have hk' : (keep || !a.isEmpty) = true := by
          cases keep <;> simp_all
        simp [hk']
      · simp only [Bool.and_eq_true, Bool.not_eq_true', beq_iff_eq, not_and]
        intro hkf hal
        apply hskip
        refine ⟨hkf, ?_⟩
        apply List.eq_nil_of_length_eq_zero; clear hz hs; omega

end first

/-! ## A string whose `size()` is negative -/

theorem str_find_negative {s : List UInt8} {z : Int} (hs : Str.size s = z) (h0 : z < 0) (hm : INT_MIN ≤ z) (p : List UInt8) (start stop : Int) (h1 : IsInt start)
    (h2 : IsInt stop) : Str.find s p start stop = if start > z then .ok (-1) else .ub .badRange := by
  unfold Str.find
  rw [hs]
  by_cases h : start > z
  · rw [if_pos h, if_pos h]
  · rw [if_neg h, if_neg h]
    rw [isInt_iff] at h1 h2
    have ht : (if stop > z then z else stop) < 0 ∧ -2147483648 ≤ (if stop > z then z else stop) := by
      unfold INT_MIN at hm
      split <;> omega
    generalize (if stop > z then z else stop) = t at *
    have e : isub t start = .ok (t - start) := isub_ok (by rw [isInt_iff]; omega)
    simp only [e, Res.ok_bind]
    unfold Str.view
    rw [if_pos (Or.inl (by omega))]
    rfl

/-! ## Property theorems -/

theorem shown_bound (n : ℕ) : INT_MIN ≤ shown n := by
  have h := shown_isInt n
  rw [isInt_iff] at h
  generalize shown n = z at *
  unfold INT_MIN
  omega

/-- C33, strings of any size: an index is taken in the first `size()` characters; none is in range if `size()` is negative, and the check is undefined if it is
`INT_MIN`. -/
theorem C33_str_any_exact (s : List UInt8) (i : Int) :
    (0 ≤ shown s.length → Str.get s i = Str.get (s.take (shown s.length).toNat) i) ∧
    (shown s.length < 0 → shown s.length ≠ INT_MIN → Str.get s i = .throw msgIndex) ∧
    (shown s.length = INT_MIN → Str.get s i = .ub .overflow) := by
  have hs := Str.size_shown s
  refine ⟨fun h => ?_, fun h hm => ?_, fun h => ?_⟩
  · obtain ⟨h1, h2, h3⟩ := shown_toNat h
    exact str_get_take (hs.trans h1.symm) h2 h3 i
  · have hb := shown_bound s.length
    unfold Str.get
    rw [hs]
    generalize shown s.length = z at *
    have e1 : ineg z = .ok (-z) := ineg_ok (by unfold INT_MIN at *; rw [isInt_iff]; omega)
    simp only [e1, Res.ok_bind]
    rw [checkBounds_throw (by omega)]
    simp only [Res.throw_bind]
  · unfold Str.get
    rw [hs, h]
    rfl

/-- C28, strings of any size: so is a slice. -/
theorem C28_str_any_exact (k : ℕ) (s : List UInt8) (start stop step : Int) :
    (0 ≤ shown s.length → Str.slice k s start stop step = Str.slice k (s.take (shown s.length).toNat) start stop step) ∧
    (shown s.length < 0 → shown s.length ≠ INT_MIN → step ≠ 0 → Str.slice k s start stop step = .throw msgIndex) ∧
    (shown s.length = INT_MIN → step ≠ 0 → Str.slice k s start stop step = .ub .overflow) := by
  have hs := Str.size_shown s
  refine ⟨fun h => ?_, fun h hm hz => ?_, fun h hz => ?_⟩
  · obtain ⟨h1, h2, h3⟩ := shown_toNat h
    exact str_slice_take (hs.trans h1.symm) h2 h3 k start stop step
  · have hb := shown_bound s.length
    unfold Str.slice
    rw [if_neg hz, hs]
    generalize shown s.length = z at *
    have e1 : ineg z = .ok (-z) := ineg_ok (by unfold INT_MIN at *; rw [isInt_iff]; omega)
    simp only [e1, Res.ok_bind]
    rw [checkBounds_throw (by omega)]
    simp only [Res.throw_bind]
  · unfold Str.slice
    rw [if_neg hz, hs, h]
    rfl

/-- C25, strings of any size: `find` looks at the first `size()` characters; if `size()` is negative it finds nothing, and is undefined for a start that is not
greater than `size()`. -/
theorem C25_any_exact (s p : List UInt8) (start stop : Int) :
    (0 ≤ shown s.length → Str.find s p start stop = Str.find (s.take (shown s.length).toNat) p start stop ∧
      Str.contains s p start stop = Str.contains (s.take (shown s.length).toNat) p start stop) ∧
    (shown s.length < 0 → IsInt start → IsInt stop →
      Str.find s p start stop = if start > shown s.length then .ok (-1) else .ub .badRange) := by
  refine ⟨fun h => ?_, fun h h1 h2 => str_find_negative (Str.size_shown s) h (shown_bound _) p start stop h1 h2⟩
  obtain ⟨h1, h2, h3⟩ := shown_toNat h
  have e := str_find_take ((Str.size_shown s).trans h1.symm) h2 h3 p start stop
  refine ⟨e, ?_⟩
  unfold Str.contains
  rw [e]

theorem find_from_zero {s p : List UInt8} (h : shown s.length < 0) : Str.find s p 0 INT_MAX = .ok (-1) := by
  rw [str_find_negative (Str.size_shown s) h (shown_bound _) p 0 INT_MAX (by rw [isInt_iff]; omega) (by rw [isInt_iff]; unfold INT_MAX; omega), if_pos (by omega)]

theorem count_empty_any (k : ℕ) (s : List UInt8) (z : Int) (hz : Str.size s = z) (hi : IsInt z) :
    Str.count k s [] = if z = INT_MAX then .ub .overflow else .ok (z + 1) := by
  unfold Str.count
  rw [show Str.isEmpty [] = true from rfl, if_pos rfl, hz]
  rw [isInt_iff] at hi
  unfold INT_MAX
  by_cases h : z = 2147483647
  · rw [if_pos h, iadd, ck_ub (by rw [isInt_iff]; omega)]
  · rw [if_neg h, iadd_ok (by rw [isInt_iff]; omega)]

theorem count_first {s p : List UInt8} {n : ℕ} (hs : Str.size s = n) (h2 : n ≤ s.length) (h3 : n ≤ maxLen) (hp : p ≠ []) {ps : List (List UInt8)}
    (hsc : Scan p (s.take n) ps) (k : ℕ) (hk : ps.length ≤ k) : Str.count k s p = .ok ((ps.length : Int) - 1) := by
  have hp0 : Str.isEmpty p = false := by simp [Str.isEmpty, hp]
  have hlen : (s.take n).length = n := by rw [List.length_take, Nat.min_eq_left h2]
  unfold Str.count
  rw [hp0, if_neg (by simp), str_countLoop_take hs h2 h3]
  have := countLoop_run hsc [] k 0 (by rw [List.nil_append, hlen]; exact h3) (by simp) hp hk
  simp only [List.nil_append, List.length_nil, Nat.cast_zero, zero_add] at this
  exact this

theorem replace_first {s p : List UInt8} {n : ℕ} (hs : Str.size s = n) (h2 : n ≤ s.length) (h3 : n ≤ maxLen) (hp : p ≠ []) (q : List UInt8)
    {ps : List (List UInt8)} (hsc : Scan p (s.take n) ps) (k : ℕ) (hk : ps.length ≤ k) : Str.replace k s p q = .ok (glue q ps ++ s.drop n) := by
  have hp0 : Str.isEmpty p = false := by simp [Str.isEmpty, hp]
  have hlen : (s.take n).length = n := by rw [List.length_take, Nat.min_eq_left h2]
  have e : s.take n ++ s.drop n = s := List.take_append_drop n s
  have := replaceLoop_any (q := q) hsc (s.drop n) [] k [] (by rw [List.nil_append, e, hlen]; exact hs) (by rw [List.nil_append, hlen]; exact h3) hp hk
  rw [List.nil_append, e] at this
  unfold Str.replace
  rw [hp0, if_neg (by simp)]
  simpa using this

theorem count_negative {s p : List UInt8} (h : shown s.length < 0) (hp : p ≠ []) (k : ℕ) (hk : 1 ≤ k) : Str.count k s p = .ok 0 := by
  have hp0 : Str.isEmpty p = false := by simp [Str.isEmpty, hp]
  obtain ⟨k, rfl⟩ : ∃ j, k = j + 1 := ⟨k - 1, by omega⟩
  unfold Str.count
  rw [hp0, if_neg (by simp), Str.countLoop, find_from_zero h, Res.ok_bind, if_pos rfl, Res.pure_eq]

theorem replace_negative {s p : List UInt8} (h : shown s.length < 0) (hp : p ≠ []) (q : List UInt8) (k : ℕ) (hk : 1 ≤ k) : Str.replace k s p q = .ok s := by
  have hp0 : Str.isEmpty p = false := by simp [Str.isEmpty, hp]
  obtain ⟨k, rfl⟩ : ∃ j, k = j + 1 := ⟨k - 1, by omega⟩
  unfold Str.replace
  rw [hp0, if_neg (by simp), Str.replaceLoop, find_from_zero h]
  simp only [Res.ok_bind, if_true, Res.pure_eq, List.nil_append]
  have := substr_end (d := []) (t := s)
  simp only [List.nil_append, List.length_nil, Nat.cast_zero] at this
  rw [this]
  rfl

/-- C26, strings of any size: `count` counts in the first `size()` characters, and `replace` leaves those that follow as they are. If `size()` is negative nothing is
found. With an empty pattern `count` is undefined if `size()` is `INT_MAX`. -/
theorem C26_any_exact (s p q : List UInt8) (hp : p ≠ []) :
    (0 ≤ shown s.length → ∀ ps, Scan p (s.take (shown s.length).toNat) ps →
      Returns (fun k => Str.count k s p) ((ps.length : Int) - 1) ∧ Returns (fun k => Str.replace k s p q) (glue q ps ++ s.drop (shown s.length).toNat)) ∧
    (shown s.length < 0 → Returns (fun k => Str.count k s p) 0 ∧ Returns (fun k => Str.replace k s p q) s) ∧
    (∀ k, Str.count k s [] = if shown s.length = INT_MAX then .ub .overflow else .ok (shown s.length + 1)) := by
  refine ⟨fun h ps hsc => ?_, fun h => ⟨⟨1, fun k hk => count_negative h hp k hk⟩, ⟨1, fun k hk => replace_negative h hp q k hk⟩⟩,
    fun k => count_empty_any k s _ (Str.size_shown s) (shown_isInt _)⟩
  obtain ⟨h1, h2, h3⟩ := shown_toNat h
  have hs := (Str.size_shown s).trans h1.symm
  exact ⟨⟨ps.length, fun k hk => count_first hs h2 h3 hp hsc k hk⟩, ⟨ps.length, fun k hk => replace_first hs h2 h3 hp q hsc k hk⟩⟩

/-- C27, strings of any size: `split` cuts the first `size()` characters and the last piece gets all that follow (it is dropped with them if it was empty and empty
pieces are dropped). If `size()` is negative the string is not split. -/
theorem C27_split_any_exact (s sep : List UInt8) (keep : Bool) (hp : sep ≠ []) :
    (0 ≤ shown s.length → ∀ ps, Scan sep (s.take (shown s.length).toNat) ps → ∀ k, ps.length ≤ k → Str.split k s sep keep =
      if (pieces keep (s.drop (shown s.length).toNat) ps).length ≤ maxLen then .ok (pieces keep (s.drop (shown s.length).toNat) ps) else .throw msgFull) ∧
    (shown s.length < 0 → Returns (fun k => Str.split k s sep keep) [s]) := by
  have hz := Str.size_shown s
  have hp0 : Str.isEmpty sep = false := by simp [Str.isEmpty, hp]
  refine ⟨fun h ps hsc k hk => ?_, fun h => ?_⟩
  · obtain ⟨h1, h2, h3⟩ := shown_toNat h
    have hs := hz.trans h1.symm
    generalize (shown s.length).toNat = n at *
    have hlen : (s.take n).length = n := by rw [List.length_take, Nat.min_eq_left h2]
    have e : s.take n ++ s.drop n = s := List.take_append_drop n s
    have := splitLoop_any (keep := keep) hsc (s.drop n) [] k [] (by rw [List.nil_append, e, hlen]; exact hs) (by rw [List.nil_append, hlen]; exact h3)
      (by simp) hp hk
    rw [List.nil_append, e, List.nil_append] at this
    unfold Str.split
    rw [hp0, if_neg (by simp)]
    exact this
  · refine ⟨1, fun k hk => ?_⟩
    obtain ⟨k, rfl⟩ : ∃ j, k = j + 1 := ⟨k - 1, by omega⟩
    beta_reduce
    unfold Str.split
    rw [hp0, if_neg (by simp), Str.splitLoop, find_from_zero h]
    simp only [Res.ok_bind, if_true, Res.pure_eq]
    have hc : (keep || (0 : Int) != Str.size s) = true := by
      rw [hz]
      have : (0 : Int) ≠ shown s.length := by omega
      simp [this]
    have := substr_end (d := []) (t := s)
    simp only [List.nil_append, List.length_nil, Nat.cast_zero] at this
    rw [if_pos hc, this, Res.ok_bind, append_fitted s [] (by simp), fitted, if_pos (by unfold maxLen; simp)]
    rfl

/-! ## Functions that fill a buffer -/

theorem copy_long {s r : List UInt8} {z : Int} (hs : Str.size s = z) (h0 : 0 ≤ z) (hl : z < s.length) (hr : r.length = s.length) :
    (do Lst.stdCopy r (← Str.buffer (Str.size s)) 0) = .ub .outOfBounds := by
  rw [hs, Str.buffer, if_neg (by omega), Res.ok_bind, stdCopy, if_neg (by rw [List.length_replicate]; omega)]

theorem shown_long {n : ℕ} (h : ¬ n ≤ maxLen) : shown n < n := by
  have h1 := shown_isInt n
  rw [isInt_iff] at h1
  generalize shown n = z at *
  unfold maxLen at h
  omega

theorem shl_long {s : List UInt8} {z : Int} (hs : Str.size s = z) (h2 : 2 ≤ z) (hm : z ≤ 2147483647) (hl : z < s.length) (n : Int) (hn : n ≠ 0) (hi : IsInt n) :
    Str.shl s n = .ub .outOfBounds := by
  unfold Str.shl
  have hc : ∀ r : List UInt8, r.length = s.length → _ := fun r hr => copy_long (s := s) (r := r) (z := z) hs (by omega) hl hr
  rw [hs] at hc ⊢
  rw [if_neg (by omega)]
  have hb := Int.tmod_lt_of_pos n (show 0 < z by omega)
  have hb' : -z < n.tmod z := by
    have := Int.lt_tmod_of_pos n (show 0 < z by omega)
    omega
  rw [imod_ok hi h2, Res.ok_bind]
  have key : ∀ m : Int, 0 ≤ m → m ≤ (s.length : Int) → (do Lst.stdCopy (Lst.stdRotate s (← iter s m)) (← Str.buffer z) 0) = .ub .outOfBounds := by
    intro m h0 h1
    rw [iter_ok h0 h1, Res.ok_bind]
    apply hc
    unfold Lst.stdRotate
    simp
    omega
  generalize n.tmod z = r at *
  by_cases h : r < 0
  · have e : iadd r z = .ok (r + z) := iadd_ok (by rw [isInt_iff]; omega)
    simp only [if_pos h, e, Res.ok_bind]
    exact key _ (by omega) (by omega)
  · simp only [if_neg h, Res.ok_bind]
    exact key _ (by omega) (by omega)

/-- C29, strings of any size: a string whose `size()` is at most 1 is not rotated; one that has more than `INT_MAX` characters is written beyond the buffer, unless it
is rotated by nothing or right by exactly `size()`. -/
theorem C29_str_any_exact (s : List UInt8) (n : Int) (hn : IsInt n) :
    Str.shl s n =
      (if shown s.length ≤ 1 ∨ n = 0 then .ok s
       else if s.length ≤ maxLen then .ok (s.rotate (n % s.length).toNat)
       else .ub .outOfBounds) ∧
    Str.shr s n =
      (if shown s.length ≤ 1 ∨ n = 0 then .ok s
       else if n = INT_MIN then .ub .overflow
       else if s.length ≤ maxLen then .ok (s.rotate (-n % s.length).toNat)
       else if n = shown s.length then .ok s
       else .ub .outOfBounds) ∧
    Str.reverse s =
      (if shown s.length < 0 then .throw "basic_string::_M_create"
       else if s.length ≤ maxLen then .ok s.reverse
       else .ub .outOfBounds) := by
  have hs := Str.size_shown s
  have hb := shown_isInt s.length
  have hlong := @shown_long s.length
  have hsm := @shown_small s.length
  rw [isInt_iff] at hb
  generalize shown s.length = z at *
  refine ⟨?_, ?_, ?_⟩
  · by_cases h : z ≤ 1 ∨ n = 0
    · rw [if_pos h, Str.shl, hs, if_pos h]
    · rw [if_neg h]
      by_cases hl : s.length ≤ maxLen
      · rw [if_pos hl, shl_eq hl, onCopy_run (rotL_run hl hn)]
        rfl
      · rw [if_neg hl, shl_long hs (by omega) hb.2 (hlong hl) n (by omega) hn]
  · by_cases h : z ≤ 1 ∨ n = 0
    · rw [if_pos h, Str.shr, hs, if_pos h]
    · rw [if_neg h]
      by_cases hm : n = INT_MIN
      · subst hm
        rw [if_pos rfl, Str.shr, hs, if_neg h, if_pos (by unfold INT_MIN; omega)]
        have : ineg INT_MIN = .ub .overflow := ck_ub (by rw [isInt_iff]; unfold INT_MIN; omega)
        rw [this]
        rfl
      · rw [if_neg hm]
        by_cases hl : s.length ≤ maxLen
        · rw [if_pos hl, shr_eq hl, onCopy_run (rotR_run hl hn (Or.inl hm))]
          rfl
        · rw [if_neg hl, Str.shr, hs, if_neg h]
          rw [isInt_iff] at hn
          unfold INT_MIN at hm
          by_cases h0 : n < 0
          · have hi : IsInt (-n) := by rw [isInt_iff]; omega
            rw [if_pos h0, if_neg (by omega), ineg_ok hi, Res.ok_bind, shl_long hs (by omega) hb.2 (hlong hl) _ (by omega) hi]
          · have hi : IsInt (z - n) := by rw [isInt_iff]; omega
            rw [if_neg h0, isub_ok hi, Res.ok_bind]
            by_cases hz : n = z
            · rw [if_pos hz, Str.shl, if_pos (Or.inr (by omega))]
            · rw [if_neg hz, shl_long hs (by omega) hb.2 (hlong hl) _ (by omega) hi]
  · unfold Str.reverse
    by_cases h : z < 0
    · rw [if_pos h, hs, Str.buffer, if_pos h, Res.throw_bind]
    · rw [if_neg h]
      by_cases hl : s.length ≤ maxLen
      · rw [if_pos hl, copy_buffer hl (by simp)]
      · rw [if_neg hl, copy_long hs (by omega) (hlong hl) (by simp)]

/-- C32, strings of any size: the two ends must lie between 0 and `size()`, whose check is undefined if it is `INT_MAX`. -/
theorem C32_str_any_exact (s : List UInt8) (start stop : Int) :
    Str.erase s start stop =
      if shown s.length = INT_MAX then .ub .overflow
      else if 0 ≤ start ∧ start ≤ shown s.length ∧ 0 ≤ stop ∧ stop ≤ shown s.length then
        (if start ≤ stop then .ok (s.take start.toNat ++ s.drop stop.toNat) else .ub .badRange)
      else .throw msgIndex := by
  have hs := Str.size_shown s
  have hb := shown_isInt s.length
  have hle := shown_le s.length
  rw [isInt_iff] at hb
  generalize shown s.length = z at *
  unfold Str.erase
  rw [hs]
  unfold INT_MAX
  by_cases h : z = 2147483647
  · have : iadd z 1 = .ub .overflow := ck_ub (by rw [isInt_iff]; omega)
    rw [if_pos h, this]
    simp only [Res.ub_bind]
  · have : iadd z 1 = .ok (z + 1) := iadd_ok (by rw [isInt_iff]; omega)
    rw [if_neg h, this]
    simp only [Res.ok_bind]
    by_cases h1 : 0 ≤ start ∧ start ≤ z
    · rw [checkBounds_ok (by omega)]
      simp only [Res.ok_bind]
      by_cases h2 : 0 ≤ stop ∧ stop ≤ z
      · rw [checkBounds_ok (by omega), if_pos (by omega)]
        simp only [Res.ok_bind]
        rw [iter_ok h1.1 (by omega), iter_ok h2.1 (by omega)]
        simp only [Res.ok_bind]
        unfold Lst.stdErase
        by_cases h3 : start ≤ stop
        · rw [if_pos h3, if_pos (by omega)]
        · rw [if_neg h3, if_neg (by omega)]
      · rw [checkBounds_throw (by omega), if_neg (by omega)]
        simp only [Res.throw_bind]
    · rw [checkBounds_throw (by omega), if_neg (by omega)]
      simp only [Res.throw_bind]

/-- C34, strings of any size: repetition is by `size()` characters. It is undefined if `size() * n` overflows, and if `size()` is not the number of characters, which
are then written beyond the buffer, unless `n` is zero or the length of the buffer is refused. -/
theorem C34_str_any_exact (s : List UInt8) (n : Int) :
    Str.mul s n =
      if n < 0 then .throw "Error: Times to repeat can not be less than zero."
      else if ¬ IsInt (shown s.length * n) then .ub .overflow
      else if shown s.length * n < 0 then .throw "basic_string::_M_create"
      else if n = 0 then .ok []
      else if s.length ≤ maxLen then .ok (List.replicate n.toNat s).flatten
      else .ub .outOfBounds := by
  by_cases h0 : n < 0
  · rw [if_pos h0, Str.mul, if_pos h0]
  rw [if_neg h0]
  have hs := Str.size_shown s
  have hsm := @shown_small s.length
  have hbig : ¬ s.length ≤ maxLen → IsInt (shown s.length * n) → shown s.length * n < s.length := by
    intro h1 h2
    unfold maxLen at h1
    rw [isInt_iff] at h2
    omega
  generalize shown s.length = z at *
  by_cases h1 : IsInt (z * n)
  · rw [if_neg (not_not.2 h1)]
    by_cases h3 : z * n < 0
    · rw [if_pos h3, Str.mul, if_neg h0, hs, imul_ok h1, Res.ok_bind, Str.buffer, if_pos h3, Res.throw_bind]
    · rw [if_neg h3]
      by_cases h4 : n = 0
      · subst h4
        rw [if_pos rfl, Str.mul, if_neg h0, hs, imul_ok h1, Res.ok_bind, Str.buffer, if_neg h3, Res.ok_bind, Int.mul_zero]
        rfl
      · rw [if_neg h4]
        by_cases h5 : s.length ≤ maxLen
        · rw [if_pos h5]
          have := hsm h5
          subst this
          exact str_mul_run h5 (by omega) (by rw [isInt_iff] at h1; unfold INT_MAX; exact h1.2)
        · have hb := hbig h5 h1
          rw [if_neg h5, Str.mul, if_neg h0, hs, imul_ok h1, Res.ok_bind, Str.buffer, if_neg h3, Res.ok_bind]
          obtain ⟨t, ht⟩ : ∃ t, n.toNat = t + 1 := ⟨n.toNat - 1, by omega⟩
          rw [forRange, ht, Nat.sub_zero, forUp]
          have e1 : imul z ((0 : ℕ) : Int) = .ok 0 := by
            have : z * ((0 : ℕ) : Int) = 0 := by simp
            rw [imul_ok (by rw [this]; decide), this]
          rw [e1]
          simp only [Res.ok_bind]
          rw [iter_ok (Int.le_refl 0) (by omega)]
          simp only [Res.ok_bind]
          unfold stdCopy
          rw [if_neg (by rw [List.length_replicate]; omega)]
          rfl
  · rw [if_pos h1, Str.mul, if_neg h0, hs]
    have : imul z n = .ub .overflow := ck_ub h1
    rw [this]
    rfl

/-! ## `strip` -/

theorem stripFront_any (ch : Int) (b : List UInt8) : ∀ (n i : Nat), i + n ≤ b.length →
    Str.stripFront ch b n i = .ok (i + (((b.drop i).take n).takeWhile (Str.stripTest ch)).length) := by
  intro n
  induction n with
  | zero => intro i h; rw [Str.stripFront, List.take_zero]; rfl
  | succ n ih =>
    intro i h
    rw [Str.stripFront, vget_ok (by omega), Res.ok_bind, List.drop_eq_getElem_cons (by omega : i < b.length), List.take_succ_cons]
    by_cases ht : Str.stripTest ch b[i] = true
    · rw [if_pos ht, ih (i + 1) (by omega), List.takeWhile_cons_of_pos ht, List.length_cons]
      exact congrArg Res.ok (by omega)
    · rw [if_neg ht, List.takeWhile_cons_of_neg ht]; rfl

theorem stripBack_any (ch : Int) (b : List UInt8) : ∀ (n : Nat), n ≤ b.length →
    Str.stripBack ch b n = .ok ((b.take n).rdropWhile (Str.stripTest ch)).length := by
  intro n
  induction n with
  | zero => intro _; rw [Str.stripBack, List.take_zero]; rfl
  | succ n ih =>
    intro h
    rw [Str.stripBack, vget_ok (by omega), Res.ok_bind, List.take_succ_eq_append_getElem (by omega : n < b.length)]
    by_cases ht : Str.stripTest ch b[n] = true
    · rw [if_pos ht, ih (by omega), List.rdropWhile_concat_pos _ _ _ ht]
    · rw [if_neg ht, List.rdropWhile_concat_neg _ _ _ ht, List.length_append, List.length_take, Nat.min_eq_left (by omega)]; rfl

theorem wrap32_bmod (x : Int) : wrap32 x = Int.bmod x 4294967296 := by
  unfold wrap32
  rw [Int.bmod_def]
  split <;> omega

/-- What `strip` leaves of `s`, the characters of `B` being stripped: it looks for the first character to keep among the first `size()` ones; of the rest it takes as
many as its number less one cut to 32 bits says, plus one, and strips them at the end. -/
def stripped (B : UInt8 → Bool) (s : List UInt8) : Res (List UInt8) :=
  let b := s.drop ((s.take (shown s.length).toNat).takeWhile B).length
  let m := Int.bmod ((b.length : Int) - 1) 4294967296 + 1
  if m < 0 then .ub .badRange else .ok ((b.take m.toNat).rdropWhile B)

theorem stripEnd_any (ch : Int) (b : List UInt8) (w : Int) (hw : wrap32 ((b.length : Int) - 1) = w) (hle : w ≤ (b.length : Int) - 1) :
    (do Lst.stdErase b (← Lst.iter b (← Str.stripEnd ch b)) b.length) =
      if w + 1 < 0 then .ub .badRange else .ok ((b.take (w + 1).toNat).rdropWhile (Str.stripTest ch)) := by
  unfold Str.stripEnd
  simp only [hw]
  by_cases h0 : w ≥ 0
  · have e : w.toNat + 1 = (w + 1).toNat := by omega
    rw [if_pos h0, if_neg (by omega), e, stripBack_any ch b _ (by omega)]
    have hp : (b.take (w + 1).toNat).rdropWhile (Str.stripTest ch) <+: b.take (w + 1).toNat := List.rdropWhile_prefix _ _
    have hp' : (b.take (w + 1).toNat).rdropWhile (Str.stripTest ch) <+: b := hp.trans (List.take_prefix _ _)
    have hlen := hp'.length_le
    generalize (b.take (w + 1).toNat).rdropWhile (Str.stripTest ch) = r at *
    show (do let p ← Lst.iter b (r.length : Int); Lst.stdErase b p b.length) = _
    rw [iter_ok (by omega) (by omega), Res.ok_bind, Int.toNat_natCast, Lst.stdErase, if_pos ⟨hlen, Nat.le_refl _⟩, List.drop_length, List.append_nil,
      List.prefix_iff_eq_take.1 hp', List.length_take, Nat.min_eq_left hlen]
  · rw [if_neg h0]
    simp only [Res.pure_eq, Res.ok_bind]
    by_cases h1 : w + 1 < 0
    · rw [if_pos h1, iter_ub (by omega), Res.ub_bind]
    · have e : w + 1 = 0 := by omega
      rw [if_neg h1, e, iter_ok (Int.le_refl 0) (by omega), Res.ok_bind, Lst.stdErase, if_pos (by simp)]
      simp

theorem strip_any (s : List UInt8) (ch : Int) : Str.strip .lenient s ch = stripped (Str.stripTest ch) s := by
  unfold Str.strip stripped
  simp only [Str.iterSucc]
  have hle : (shown s.length).toNat ≤ s.length := by have := shown_le s.length; omega
  rw [Str.size_shown, stripFront_any ch s _ 0 (by omega), Res.ok_bind, Nat.zero_add, List.drop_zero]
  generalize (shown s.length).toNat = n at *
  have h1 : ((s.take n).takeWhile (Str.stripTest ch)).length ≤ s.length := by
    have := (List.takeWhile_prefix (Str.stripTest ch) (l := s.take n)).length_le
    rw [List.length_take] at this
    omega
  generalize ((s.take n).takeWhile (Str.stripTest ch)).length = i at *
  have e : Lst.stdErase s 0 i = .ok (s.drop i) := by
    rw [Lst.stdErase, if_pos ⟨Nat.zero_le _, h1⟩, List.take_zero, List.nil_append]
  rw [e, Res.ok_bind]
  rw [← wrap32_bmod]
  generalize hb : s.drop i = b
  refine stripEnd_any ch b _ rfl ?_
  unfold wrap32
  omega

/-- C31, strings of any size: what `strip()` and `strip(c)` leave. -/
theorem C31_strip_any_exact (s : List UInt8) :
    Str.strip .lenient s = stripped (fun c => decide (c.toNat ≤ 0x20 ∨ 0x80 ≤ c.toNat)) s ∧
    (∀ d : UInt8, d ≠ 255 → Str.strip .lenient s (Str.schar d) = stripped (fun c => decide (c = d)) s) ∧
    Str.strip .lenient s (Str.schar 255) = Str.strip .lenient s ∧
    (∀ ch, Str.strip .lenient s ch = .ok [] → Str.strip .strict s ch = .ub .badRange) ∧
    (∀ ch, Str.strip .lenient s ch ≠ .ok [] → Str.strip .strict s ch = Str.strip .lenient s ch) := by
  refine ⟨?_, fun d hd => ?_, rfl, fun ch => (strip_strict s ch).1, fun ch => (strip_strict s ch).2⟩
  · rw [strip_any]
    congr 1
    funext c
    unfold Str.stripTest Str.schar
    rw [if_pos rfl]
    have := c.toNat_lt
    apply decide_eq_decide.2
    split <;> omega
  · rw [strip_any]
    congr 1
    funext c
    have hd' : Str.schar d ≠ -1 := by
      intro h; apply hd
      unfold Str.schar at h
      have := d.toNat_lt
      apply UInt8.toNat_inj.1
      split at h
      · omega
      · show d.toNat = 255; omega
    unfold Str.stripTest
    rw [if_neg hd']
    apply decide_eq_decide.2
    constructor
    · intro h
      unfold Str.schar at h
      have h1 := d.toNat_lt; have h2 := c.toNat_lt
      apply UInt8.toNat_inj.1
      split at h <;> split at h <;> omega
    · rintro rfl; rfl

/-! ## Numbers -/

theorem visited_any (s : List UInt8) : Str.visited s = s.take (shown s.length).toNat := by unfold Str.visited; rw [Str.size_shown]

theorem toIntegerLoop_size (mem : Mem) (k : ℕ) {s s' : List UInt8} (h : Str.size s = Str.size s') (base : Int) :
    ∀ (cs : List UInt8) (st : Str.St) (nn : Bool) (z : BInt), Str.toIntegerLoop mem k s base cs st nn z = Str.toIntegerLoop mem k s' base cs st nn z := by
  intro cs
  induction cs with
  | nil => intros; rfl
  | cons c cs ih =>
    intro st nn z
    have hl : ∀ {α : Type} (a : α), Str.leaveLoop s a = Str.leaveLoop s' a := fun a => by unfold Str.leaveLoop; rw [h]
    unfold Str.toIntegerLoop
    simp only [ih, hl]

theorem toDecimalLoop_size {D : Type} (ops : Str.DoubleOps D) {s s' : List UInt8} (h : Str.size s = Str.size s') :
    ∀ (cs : List UInt8) (st : Str.St) (v : Str.DecVars D), Str.toDecimalLoop ops s cs st v = Str.toDecimalLoop ops s' cs st v := by
  intro cs
  induction cs with
  | nil => intros; rfl
  | cons c cs ih =>
    intro st v
    have hl : ∀ {α : Type} (a : α), Str.leaveLoop s a = Str.leaveLoop s' a := fun a => by unfold Str.leaveLoop; rw [h]
    unfold Str.toDecimalLoop
    simp only [ih, hl]

/-- The characters that are looked at, which is none if `size()` is negative, are visited in the string and in themselves. -/
theorem visited_first (s : List UInt8) :
    Str.visited (s.take (shown s.length).toNat) = Str.visited s ∧
      (Str.size (s.take (shown s.length).toNat) = Str.size s ∨ Str.visited s = []) := by
  rw [visited_any s]
  by_cases h : 0 ≤ shown s.length
  · obtain ⟨h1, h2, h3⟩ := shown_toNat h
    have hlen : (s.take (shown s.length).toNat).length = (shown s.length).toNat := by rw [List.length_take, Nat.min_eq_left h2]
    refine ⟨visited_eq (by omega), Or.inl ?_⟩
    rw [Str.size_take h2 h3, h1, Str.size_shown]
  · have e : (shown s.length).toNat = 0 := by omega
    rw [e, List.take_zero]
    exact ⟨rfl, Or.inr rfl⟩

/-- C23, strings of any size: `to_integer` reads the first `size()` characters as if there were no others. -/
theorem C23_any_exact (mem : Mem) (k : ℕ) (s : List UInt8) (base : Int) :
    Str.toInteger mem k s base = Str.toInteger mem k (s.take (shown s.length).toNat) base := by
  obtain ⟨h1, h2⟩ := visited_first s
  unfold Str.toInteger
  rw [h1]
  rcases h2 with h2 | h2
  · simp only [toIntegerLoop_size mem k h2]
  · simp only [h2, Str.toIntegerLoop]

theorem special_mem {u : List UInt8} (h : IsSpecial u) : u ∈ Str.posInfs ++ Str.negInfs ++ Str.nans := by
  simp only [List.mem_append]
  rcases h with h | h | h
  · have := (posInfs_iff u).2 h; simp at this; tauto
  · have := (negInfs_iff u).2 h; simp at this; tauto
  · have := (nans_iff u).2 h; simp at this; tauto

theorem special_short {u : List UInt8} (h : IsSpecial u) : u.length ≤ 9 ∧ u ≠ [] := by
  have key : ∀ u ∈ Str.posInfs ++ Str.negInfs ++ Str.nans, u.length ≤ 9 ∧ u ≠ [] := by decide +kernel
  exact key u (special_mem h)

theorem toDecimal_plain {D : Type} (ops : Str.DoubleOps D) {s : List UInt8} (h : ¬ IsSpecial s) :
    Str.toDecimal ops s = (do
      let (st, v) ← Str.toDecimalLoop ops s (Str.visited s) .start { decimalPart := ops.ofInt 0 }
      if st ≠ .int ∧ st ≠ .dec ∧ st ≠ .expNum ∧ st ≠ .end_ then .throw "Error: Invalid literal for to_decimal()."
      else pure (ops.mul (ops.ofInt v.sign)
        (ops.mul (ops.div v.decimalPart (ops.pow10 (ops.ofInt v.decimalCnt)))
          (ops.pow10 (ops.mul (ops.ofInt v.expSign) (ops.ofInt v.expPart)))))) := by
  unfold Str.toDecimal
  unfold IsSpecial at h
  rw [← posInfs_iff, ← negInfs_iff, ← nans_iff] at h
  rw [if_neg (by tauto), if_neg (by tauto), if_neg (by tauto)]

/-- C24, strings of any size: so does `to_decimal`, but in a string of more than `INT_MAX` characters they are never taken for infinity or not-a-number. -/
theorem C24_any_exact {D : Type} (ops : Str.DoubleOps D) (s : List UInt8) (hs : maxLen < s.length) :
    (IsSpecial (s.take (shown s.length).toNat) → Str.toDecimal ops s = .throw "Error: Invalid literal for to_decimal().") ∧
    (¬ IsSpecial (s.take (shown s.length).toNat) → Str.toDecimal ops s = Str.toDecimal ops (s.take (shown s.length).toNat)) := by
  obtain ⟨h1, h2⟩ := visited_first s
  have hv := visited_any s
  have hns : ¬ IsSpecial s := fun h => by have := (special_short h).1; unfold maxLen at hs; omega
  rw [toDecimal_plain ops hns]
  generalize s.take (shown s.length).toNat = u at *
  refine ⟨fun h => ?_, fun h => ?_⟩
  · obtain ⟨hl, hne⟩ := special_short h
    obtain ⟨v, hr⟩ := special_other _ h
    have := toDecimalLoop_eq ops s u .start {} (by simp) (by simp) (by unfold maxLen; simp; omega)
      (by show ((numeralIn 10 [] : Nat) : Int) ≤ INT_MAX; rw [numeralIn_nil]; unfold INT_MAX; omega)
    have e0 : Rd.vars ops {} = { decimalPart := ops.ofInt 0 } := rfl
    rw [e0, hr] at this
    simp only [if_true] at this
    rw [hv, this]
    have hsz : ∃ m : Int, iadd (Str.size s) 1 = .ok m := by
      rcases h2 with h2 | h2
      · rw [← h2, Str.size_eq' (by unfold maxLen; omega)]
        exact ⟨_, iadd_ok (by rw [isInt_iff]; omega)⟩
      · exact absurd (hv.symm.trans h2) hne
    obtain ⟨m, hm⟩ := hsz
    unfold Str.leaveLoop
    rw [hm]
    rfl
  · rw [toDecimal_plain ops h, h1]
    rcases h2 with h2 | h2
    · simp only [toDecimalLoop_size ops h2]
    · simp only [h2, Str.toDecimalLoop]

/-! ## `join` -/

theorem forUp_congr {σ : Type} {f g : ℕ → σ → Res σ} (n : ℕ) (h : ∀ i b, i < n → f i b = g i b) :
    ∀ (m i : ℕ) (b : σ), i + m ≤ n → forUp f i m b = forUp g i m b := by
  intro m
  induction m with
  | zero => intro i b _; rw [forUp, forUp]
  | succ m ih =>
    intro i b hi
    rw [forUp, forUp, h i b (by omega)]
    cases g i b with
    | ok x =>
      simp only [Res.ok_bind]
      exact ih (i + 1) x (by omega)
    | throw m => simp only [Res.throw_bind]
    | ub u => simp only [Res.ub_bind]
    | fuel => simp only [Res.fuel_bind]

theorem join_first (s : List UInt8) {l : List (List UInt8)} {n : ℕ} (hs : Lst.size l = n) (h2 : n ≤ l.length) (h3 : n ≤ maxLen) (hn : 0 < n)
    (hget : ∀ i : ℕ, i < n → Lst.get l (i : Int) = Lst.get (l.take n) (i : Int)) : Str.join s l = .ok (glue s (l.take n)) := by
  have hlen : (l.take n).length = n := by rw [List.length_take, Nat.min_eq_left h2]
  rw [← join_run s (l.take n) (by omega)]
  have hne : Lst.isEmpty l = false := by
    have : l ≠ [] := by intro h; rw [h] at h2; simp at h2; omega
    simp [Lst.isEmpty, this]
  have hne' : Lst.isEmpty (l.take n) = false := by
    have : l.take n ≠ [] := by intro h; rw [h] at hlen; simp at hlen; omega
    simp only [Lst.isEmpty, List.isEmpty_eq_false_iff]
    exact this
  unfold Str.join
  rw [hne, hne', if_neg (by simp), if_neg (by simp), hs, Lst.size_eq (l := l.take n) (by omega), hlen]
  have g := hget 0 hn
  simp only [Nat.cast_zero] at g
  rw [g, Int.toNat_natCast]
  unfold forRange
  cases Lst.get (l.take n) 0 with
  | ok first =>
    simp only [Res.ok_bind]
    exact forUp_congr n (fun i b hi => by rw [hget i hi]) _ 1 first (by omega)
  | throw m => simp only [Res.throw_bind]
  | ub u => simp only [Res.ub_bind]
  | fuel => simp only [Res.fuel_bind]

/-- C27, lists of any size: `join` joins the first `size()` strings; if there are none of these (but others) it throws, and it is undefined if `size()` is
`INT_MIN`. -/
theorem C27_join_any_exact (s : List UInt8) (l : List (List UInt8)) :
    Str.join s l =
      if l = [] then .ok []
      else if shown l.length = INT_MIN then .ub .overflow
      else if shown l.length ≤ 0 then .throw msgIndex
      else .ok (glue s (l.take (shown l.length).toNat)) := by
  by_cases h0 : l = []
  · subst h0; rfl
  · have hne : Lst.isEmpty l = false := by simp [Lst.isEmpty, h0]
    rw [if_neg h0]
    obtain ⟨g1, g2, g3⟩ := C33_list_any_exact l 0
    by_cases hm : shown l.length = INT_MIN
    · rw [if_pos hm, Str.join, hne, if_neg (by simp), g1 hm]
      rfl
    · rw [if_neg hm]
      by_cases hz : shown l.length ≤ 0
      · have e : (shown l.length).toNat = 0 := by omega
        rw [e] at g3
        rw [if_pos hz, Str.join, hne, if_neg (by simp), g3 hm rfl]
        rfl
      · rw [if_neg hz]
        obtain ⟨h1, h2, h3⟩ := shown_toNat (show 0 ≤ shown l.length by omega)
        have hs := (Lst.size_shown l).trans h1.symm
        have hn : 0 < (shown l.length).toNat := by omega
        have hget : ∀ i : ℕ, i < (shown l.length).toNat → Lst.get l (i : Int) = Lst.get (l.take (shown l.length).toNat) (i : Int) := by
          intro i hi
          have hlen : (l.take (shown l.length).toNat).length = (shown l.length).toNat := by rw [List.length_take, Nat.min_eq_left h2]
          obtain ⟨_, k2, _⟩ := C33_list_any_exact l (i : Int)
          have hp : pyIndex (shown l.length).toNat (i : Int) = some i := by
            rw [pyIndex_nonneg (by omega) (by omega)]; simp
          obtain ⟨hlt, k⟩ := k2 hm i hp
          obtain ⟨x, e1, e2⟩ := get_some (l := l.take (shown l.length).toNat) (i := (i : Int)) (p := i) (by omega) (by rw [hlen]; exact hp)
          rw [k, e2]
          rw [List.getElem?_take_of_lt hi, List.getElem?_eq_getElem hlt] at e1
          rw [Option.some.inj e1]
        exact join_first s hs h2 h3 hn hget

/-! ## Examples -/

example : ∃ s : List UInt8, shown s.length = 3 ∧ maxLen < s.length :=
  ⟨List.replicate 4294967299 97, by rw [List.length_replicate]; exact shown_three rfl, by rw [List.length_replicate]; unfold maxLen; omega⟩
example : ∃ s : List UInt8, shown s.length = INT_MIN := ⟨List.replicate 2147483648 97, by rw [List.length_replicate]; exact shown_min rfl⟩

/-- A string of `2^32 + 3` characters: its last character is not `s[-1]`, its third one is; it cannot be reversed; and it does not contain what begins with its
fourth character only. -/
theorem C33_str_huge_not (s : List UInt8) (hs : s.length = 4294967299) :
    Str.get s 3 = .throw msgIndex ∧ Str.reverse s = .ub .outOfBounds ∧ ∀ c : UInt8, c ∉ s.take 3 → Str.find s [c] = .ok (-1) := by
  have h3 : shown s.length = 3 := shown_three hs
  have hn : ¬ s.length ≤ maxLen := by unfold maxLen; omega
  have ht : (s.take 3).length = 3 := by rw [List.length_take]; omega
  refine ⟨?_, ?_, fun c hc => ?_⟩
  · have := (C33_str_any_exact s 3).1 (by rw [h3]; omega)
    rw [h3] at this
    rw [this]
    have := (C33_str_index (s.take 3) (by unfold maxLen; omega) 3).2.2
    exact this (Or.inr (by rw [ht]; decide))
  · rw [(C29_str_any_exact s 0 (by decide)).2.2, if_neg (by rw [h3]; omega), if_neg hn]
  · have := ((C25_any_exact s [c] 0 INT_MAX).1 (by rw [h3]; omega)).1
    rw [h3] at this
    rw [this]
    have hf := find_from (d := []) (t := s.take 3) (p := [c]) (by rw [List.nil_append, ht]; unfold maxLen; omega)
    rw [search_eq_none] at hf
    · exact hf
    · intro i ho
      obtain ⟨a, b, e, _⟩ := ho
      apply hc
      show c ∈ s.take 3
      rw [e]
      simp

end Pyincpp
