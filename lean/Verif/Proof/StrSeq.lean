import Verif.Proof.StrFind

/-! # Strings as sequences: `Str` methods against the `List` methods they repeat -/

namespace Pyincpp
open Lst

section
variable {α : Type}

theorem onCopy_lift_bind {β : Type} (r : Res β) (f : β → Meth (List α) Unit) (l : List α) :
    onCopy (Meth.lift r >>= f) l = r >>= fun a => onCopy (f a) l := by
  unfold onCopy
  cases r with
  | ok a => rw [Meth.lift_ok_bind, Res.ok_bind]
  | throw m => rw [Meth.lift_throw_bind, Res.throw_bind]
  | ub u => rw [Meth.lift_ub_bind, Res.ub_bind]
  | fuel => rw [Meth.lift_fuel_bind, Res.fuel_bind]

theorem onCopy_get_bind (f : List α → Meth (List α) Unit) (l : List α) : onCopy (Meth.get >>= f) l = onCopy (f l) l := by
  unfold onCopy; rw [Meth.get_bind]

theorem onCopy_set (r l : List α) : onCopy (Meth.set r) l = .ok r := by unfold onCopy; rw [Meth.set_run]
theorem onCopy_pure (l : List α) : onCopy (pure ()) l = .ok l := by unfold onCopy; rw [Meth.pure_run]

theorem onCopy_ub {m : Meth (List α) Unit} {l l' : List α} {u : UB} (h : m l = (.ub u, l')) : onCopy m l = .ub u := by
  unfold onCopy; rw [h]

theorem onCopy_ite {c : Prop} [Decidable c] (a b : Meth (List α) Unit) (l : List α) :
    onCopy (if c then a else b) l = if c then onCopy a l else onCopy b l := by split <;> rfl
end

/-- A copy of the whole string into a buffer of its size. -/
theorem copy_buffer {s r : List UInt8} (hs : s.length ≤ maxLen) (hr : r.length = s.length) :
    (do Lst.stdCopy r (← Str.buffer (Str.size s)) 0) = .ok r := by
  rw [Str.size_eq' hs, Str.buffer, if_neg (by omega), Res.ok_bind, Int.toNat_natCast, stdCopy, if_pos (by simp [hr])]
  simp [hr]

theorem shl_eq {s : List UInt8} (hl : s.length ≤ maxLen) (n : Int) : Str.shl s n = onCopy (rotL n) s := by
  unfold Str.shl rotL
  simp only [onCopy_get_bind, onCopy_ite, onCopy_pure, onCopy_lift_bind, onCopy_set]
  rw [show Lst.size s = Str.size s from rfl]
  by_cases h0 : Str.size s ≤ 1 ∨ n = 0
  · rw [if_pos h0, if_pos h0]
  · rw [if_neg h0, if_neg h0]
    cases imod n (Str.size s) with
    | ok m =>
      simp only [Res.ok_bind]
      have key : ∀ m : Int, (do Lst.stdCopy (Lst.stdRotate s (← iter s m)) (← Str.buffer (Str.size s)) 0) =
          (do pure (Lst.stdRotate s (← iter s m)) : Res (List UInt8)) := by
        intro m
        cases iter s m with
        | ok p =>
          simp only [Res.ok_bind]
          refine copy_buffer hl ?_
          unfold Lst.stdRotate
          simp only [List.length_append, List.length_drop, List.length_take]
          omega
        | _ => simp only [Res.throw_bind, Res.ub_bind, Res.fuel_bind]
      split
      · cases iadd m (Str.size s) with
        | ok m => simp only [Res.ok_bind]; exact key m
        | _ => simp only [Res.throw_bind, Res.ub_bind, Res.fuel_bind]
      · simp only [Res.ok_bind]; exact key m
    | _ => simp only [Res.throw_bind, Res.ub_bind, Res.fuel_bind]

theorem shr_eq {s : List UInt8} (hl : s.length ≤ maxLen) (n : Int) : Str.shr s n = onCopy (rotR n) s := by
  unfold Str.shr rotR
  simp only [onCopy_get_bind, onCopy_ite, onCopy_pure, onCopy_lift_bind, shl_eq hl]
  rfl

theorem str_erase_eq (s : List UInt8) (a b : Int) : Str.erase s a b = onCopy (erase a b) s := by
  unfold Str.erase erase
  simp only [onCopy_get_bind, onCopy_lift_bind, onCopy_set]
  have hs : Str.size s = Lst.size s := rfl
  rw [hs]
  cases iadd (Lst.size s) 1 with
  | ok h =>
    simp only [Res.ok_bind]
    have : ∀ x : Res (List UInt8), (x >>= fun r => Res.ok r) = x := fun x => by cases x <;> rfl
    simp only [this]
  | _ => simp only [Res.throw_bind, Res.ub_bind, Res.fuel_bind]

theorem charAt_vat {s : List UInt8} {i : Int} (h : Lst.vat s i ≠ .ub .outOfBounds) : Str.charAt s i = Lst.vat s i := by
  unfold Lst.vat at h
  by_cases h0 : 0 ≤ i
  · rw [if_pos h0] at h
    have hlt : i.toNat < s.length := by
      by_contra hc
      exact h (vget_ub (by omega))
    unfold Str.charAt Lst.vat
    rw [if_neg (by omega), if_pos h0]
  · rw [if_neg h0] at h; exact absurd rfl h

theorem str_sliceLoop_eq (s : List UInt8) (stop step : Int) : ∀ (k : Nat) (i : Int) (b : List UInt8),
    Lst.sliceLoop s stop step k i b ≠ .ub .outOfBounds → Str.sliceLoop s stop step k i b = Lst.sliceLoop s stop step k i b := by
  intro k
  induction k with
  | zero => intro i b _; rfl
  | succ k ih =>
    intro i b h
    rw [Str.sliceLoop, Lst.sliceLoop]
    rw [Lst.sliceLoop] at h
    by_cases hc : (if step > 0 then i < stop else i > stop)
    · rw [if_pos hc] at h
      rw [if_pos hc, if_pos hc]
      have hv : Lst.vat s i ≠ .ub .outOfBounds := by
        intro e; rw [e, Res.ub_bind] at h; exact h rfl
      rw [charAt_vat hv]
      cases hvat : Lst.vat s i with
      | ok x =>
        rw [hvat, Res.ok_bind] at h
        rw [Res.ok_bind, Res.ok_bind]
        cases hadd : iadd i step with
        | ok j =>
          rw [hadd, Res.ok_bind] at h
          rw [Res.ok_bind, Res.ok_bind]; exact ih j _ h
        | _ => simp only [Res.throw_bind, Res.ub_bind, Res.fuel_bind]
      | _ => simp only [Res.throw_bind, Res.ub_bind, Res.fuel_bind]
    · rw [if_neg hc, if_neg hc]

theorem str_slice_eq (k : Nat) (s : List UInt8) (start stop step : Int) (h : Lst.slice k s start stop step ≠ .ub .outOfBounds) :
    Str.slice k s start stop step = Lst.slice k s start stop step := by
  have hs : Str.size s = Lst.size s := rfl
  have hf : Str.fromEnd s = Lst.fromEnd s := rfl
  unfold Lst.slice at h
  unfold Str.slice Lst.slice
  rw [hs, hf]
  by_cases h0 : step = 0
  · rw [if_pos h0, if_pos h0]
  · rw [if_neg h0] at h
    rw [if_neg h0, if_neg h0]
    cases e1 : ineg (Lst.size s) with
    | ok lo =>
      rw [e1, Res.ok_bind] at h; rw [Res.ok_bind, Res.ok_bind]
      cases e2 : checkBounds start lo (Lst.size s) with
      | ok u =>
        rw [e2, Res.ok_bind] at h; rw [Res.ok_bind, Res.ok_bind]
        cases e3 : isub lo 1 with
        | ok lo' =>
          rw [e3, Res.ok_bind] at h; rw [Res.ok_bind, Res.ok_bind]
          cases e4 : iadd (Lst.size s) 1 with
          | ok hi' =>
            rw [e4, Res.ok_bind] at h; rw [Res.ok_bind, Res.ok_bind]
            cases e5 : checkBounds stop lo' hi' with
            | ok u =>
              rw [e5, Res.ok_bind] at h; rw [Res.ok_bind, Res.ok_bind]
              cases e6 : Lst.fromEnd s start with
              | ok a =>
                rw [e6, Res.ok_bind] at h; rw [Res.ok_bind, Res.ok_bind]
                cases e7 : Lst.fromEnd s stop with
                | ok b =>
                  rw [e7, Res.ok_bind] at h; rw [Res.ok_bind, Res.ok_bind]
                  exact str_sliceLoop_eq s b step k a [] h
                | _ => simp only [Res.throw_bind, Res.ub_bind, Res.fuel_bind]
              | _ => simp only [Res.throw_bind, Res.ub_bind, Res.fuel_bind]
            | _ => simp only [Res.throw_bind, Res.ub_bind, Res.fuel_bind]
          | _ => simp only [Res.throw_bind, Res.ub_bind, Res.fuel_bind]
        | _ => simp only [Res.throw_bind, Res.ub_bind, Res.fuel_bind]
      | _ => simp only [Res.throw_bind, Res.ub_bind, Res.fuel_bind]
    | _ => simp only [Res.throw_bind, Res.ub_bind, Res.fuel_bind]

theorem str_get_eq (s : List UInt8) (i : Int) (h : Lst.get s i ≠ .ub .outOfBounds) : Str.get s i = Lst.get s i := by
  unfold Lst.get Lst.refAt at h
  unfold Str.get Lst.get Lst.refAt
  have hs : Str.size s = Lst.size s := rfl
  rw [hs]
  cases e1 : ineg (Lst.size s) with
  | ok lo =>
    rw [e1, Res.ok_bind] at h; simp only [Res.ok_bind]
    cases e2 : checkBounds i lo (Lst.size s) with
    | ok u =>
      rw [e2, Res.ok_bind] at h; simp only [Res.ok_bind]
      by_cases h0 : i ≥ 0
      · rw [if_pos h0, Res.pure_eq, Res.ok_bind] at h
        rw [if_pos h0, if_pos h0, Res.pure_eq, Res.ok_bind, Res.ok_bind, charAt_vat h]
      · rw [if_neg h0] at h
        rw [if_neg h0, if_neg h0]
        cases e3 : iadd i (Lst.size s) with
        | ok j => rw [e3, Res.ok_bind] at h; rw [Res.ok_bind, Res.ok_bind, charAt_vat h]
        | _ => simp only [Res.throw_bind, Res.ub_bind, Res.fuel_bind]
    | _ => simp only [Res.throw_bind, Res.ub_bind, Res.fuel_bind]
  | _ => simp only [Res.throw_bind, Res.ub_bind, Res.fuel_bind]

/-! ## Repetition -/

theorem str_mul_run {l : List UInt8} {t : Int} (hl : l.length ≤ maxLen) (ht : 0 ≤ t)
    (hfit : (l.length : Int) * t ≤ INT_MAX) : Str.mul l t = .ok (List.replicate t.toNat l).flatten := by
  have hfit' := hfit
  unfold INT_MAX at hfit'
  have hnn : 0 ≤ (l.length : Int) * t := Int.mul_nonneg (by omega) ht
  unfold Str.mul
  rw [if_neg (by omega), Str.size_eq' hl, imul_ok (by rw [isInt_iff]; omega), Res.ok_bind, Str.buffer, if_neg (by omega), Res.ok_bind]
  have hn : ((l.length : Int) * t).toNat = t.toNat * l.length := by
    rw [Int.toNat_mul (by omega) ht]; simp [Nat.mul_comm]
  unfold forRange
  rw [Nat.sub_zero]
  have key : ∀ (m i : Nat), i + m = t.toNat →
      forUp (fun part b => do
        let p ← iter b (← imul (l.length : Int) part)
        stdCopy l b p) i m ((List.replicate i l).flatten ++ List.replicate (m * l.length) 0) =
      .ok (List.replicate t.toNat l).flatten := by
    intro m
    induction m with
    | zero => intro i hi; simp at hi; subst hi; simp [forUp]
    | succ m ih =>
      intro i hi
      have hlen : ((List.replicate i l).flatten).length = i * l.length := by simp
      have hle : (i + 1) * l.length ≤ t.toNat * l.length := Nat.mul_le_mul_right _ (by omega)
      have hle2 : t.toNat * l.length ≤ 2147483647 := by omega
      have hexp : (i + 1) * l.length = i * l.length + l.length := by ring
      have hexp2 : (m + 1) * l.length = m * l.length + l.length := by ring
      have hcast : (l.length : Int) * (i : Int) = ((i * l.length : Nat) : Int) := by push_cast; ring
      have eI : imul (l.length : Int) (i : Int) = .ok ((i * l.length : Nat) : Int) := by
        rw [imul_ok (by rw [hcast, isInt_iff]; omega), hcast]
      rw [forUp, eI]
      rw [Res.ok_bind, iter_ok (by omega) (by simp), Res.ok_bind, Int.toNat_natCast, stdCopy, if_pos (by simp; omega),
        Res.ok_bind]
      rw [← ih (i + 1) (by omega)]
      rw [List.take_left' hlen, show i * l.length + l.length = ((List.replicate i l).flatten ++ l).length by simp]
      congr 1
      rw [List.replicate_succ', List.flatten_append, hexp2, Nat.add_comm (m * l.length), List.replicate_add]
      rw [← List.append_assoc (List.replicate i l).flatten (List.replicate l.length 0),
        List.drop_left' (by simp)]
      simp
  have := key t.toNat 0 (by omega)
  simp only [List.replicate_zero, List.flatten_nil, List.nil_append] at this
  rw [hn]
  exact this

/-! ## Strip -/

theorem stripFront_run (ch : Int) (b : List UInt8) : ∀ (n i : Nat), i + n = b.length →
    Str.stripFront ch b n i = .ok (i + ((b.drop i).takeWhile (Str.stripTest ch)).length) := by
  intro n
  induction n with
  | zero => intro i h; rw [Str.stripFront, List.drop_eq_nil_of_le (by omega)]; rfl
  | succ n ih =>
    intro i h
    rw [Str.stripFront, vget_ok (by omega), Res.ok_bind, List.drop_eq_getElem_cons (by omega : i < b.length)]
    by_cases ht : Str.stripTest ch b[i] = true
    · rw [if_pos ht, ih (i + 1) (by omega), List.takeWhile_cons_of_pos ht, List.length_cons]
      exact congrArg Res.ok (by omega)
    · rw [if_neg ht, List.takeWhile_cons_of_neg ht]; rfl

theorem stripBack_run (ch : Int) (b : List UInt8) : ∀ (n : Nat), n ≤ b.length →
    ∃ j, Str.stripBack ch b n = .ok j ∧ j ≤ n ∧ (∀ i, j ≤ i → i < n → ∀ c, b[i]? = some c → Str.stripTest ch c = true) ∧
      (0 < j → ∀ c, b[j - 1]? = some c → Str.stripTest ch c = false) := by
  intro n
  induction n with
  | zero => intro _; exact ⟨0, rfl, by omega, by omega, by omega⟩
  | succ n ih =>
    intro h
    rw [Str.stripBack, vget_ok (by omega), Res.ok_bind]
    by_cases ht : Str.stripTest ch b[n] = true
    · obtain ⟨j, h1, h2, h3, h4⟩ := ih (by omega)
      refine ⟨j, by rw [if_pos ht, h1], by omega, ?_, h4⟩
      intro i hi hi' c hc
      by_cases hin : i = n
      · subst hin; rw [List.getElem?_eq_getElem (by omega)] at hc; rw [← Option.some.inj hc]; exact ht
      · exact h3 i hi (by omega) c hc
    · refine ⟨n + 1, by rw [if_neg ht]; rfl, by omega, by omega, ?_⟩
      intro _ c hc
      rw [Nat.add_sub_cancel, List.getElem?_eq_getElem (by omega)] at hc
      rw [← Option.some.inj hc]; simpa using ht

/-- `strip` cuts off the longest ends that satisfy its test. -/
theorem strip_run (s : List UInt8) (hs : s.length ≤ maxLen) (ch : Int) :
    ∃ pre r suf, Str.strip .lenient s ch = .ok r ∧ s = pre ++ (r ++ suf) ∧ (∀ c ∈ pre, Str.stripTest ch c = true) ∧
      (∀ c ∈ suf, Str.stripTest ch c = true) ∧ (∀ c t, r = c :: t → Str.stripTest ch c = false) ∧
      (∀ c t, r = t ++ [c] → Str.stripTest ch c = false) := by
  unfold Str.strip
  simp only [Str.iterSucc]
  rw [Str.size_eq' hs, Int.toNat_natCast, stripFront_run ch s s.length 0 (by omega), Res.ok_bind, Nat.zero_add,
    List.drop_zero]
  set p := Str.stripTest ch with hp
  have hsplit : s.takeWhile p ++ s.dropWhile p = s := List.takeWhile_append_dropWhile
  have e1 : Lst.stdErase s 0 (s.takeWhile p).length = .ok (s.dropWhile p) := by
    unfold Lst.stdErase
    have hle : (s.takeWhile p).length ≤ s.length := (List.takeWhile_prefix p).length_le
    rw [if_pos ⟨by omega, hle⟩, List.take_zero, List.nil_append]
    have h := List.drop_left' (l₂ := s.dropWhile p) (rfl : (s.takeWhile p).length = _)
    rw [hsplit] at h
    rw [h]
  rw [e1, Res.ok_bind]
  obtain ⟨j, h1, h2, h3, h4⟩ := stripBack_run ch (s.dropWhile p) (s.dropWhile p).length (by omega)
  have hd : (s.dropWhile p).length ≤ maxLen := le_trans (List.dropWhile_sublist p).length_le hs
  have hw : wrap32 (((s.dropWhile p).length : Int) - 1) = ((s.dropWhile p).length : Int) - 1 := by
    apply wrap32_eq; rw [isInt_iff]; unfold maxLen at hd; omega
  have e2 : Str.stripEnd ch (s.dropWhile p) = .ok (j : Int) := by
    unfold Str.stripEnd
    simp only [hw]
    by_cases h0 : ((s.dropWhile p).length : Int) - 1 ≥ 0
    · rw [if_pos h0, show (((s.dropWhile p).length : Int) - 1).toNat + 1 = (s.dropWhile p).length by omega, h1]; rfl
    · rw [if_neg h0, Res.pure_eq]; exact congrArg Res.ok (by omega)
  rw [e2, Res.ok_bind]
  rw [iter_ok (by omega) (by omega), Res.ok_bind, Int.toNat_natCast]
  refine ⟨s.takeWhile p, (s.dropWhile p).take j, (s.dropWhile p).drop j, ?_, ?_, ?_, ?_, ?_, ?_⟩
  · unfold Lst.stdErase
    rw [if_pos ⟨h2, by omega⟩, List.drop_length, List.append_nil]
  · rw [List.take_append_drop, hsplit]
  · intro c hc; exact List.all_eq_true.1 List.all_takeWhile c hc
  · intro c hc
    obtain ⟨i, hi, e⟩ := List.getElem_of_mem hc
    rw [List.length_drop] at hi
    rw [List.getElem_drop] at e
    exact h3 (j + i) (by omega) (by omega) c (by rw [List.getElem?_eq_getElem (by omega), e])
  · intro c t e
    cases hd : s.dropWhile p with
    | nil => rw [hd] at e; simp at e
    | cons a l =>
      have hna : p a = false := by
        have := List.head_dropWhile_not p (l := s) (by rw [hd]; simp)
        simpa [hd] using this
      rw [hd] at e
      cases j with
      | zero => simp at e
      | succ j => simp at e; rw [← e.1]; exact hna
  · intro c t e
    have hj : 0 < j := by
      rcases Nat.eq_zero_or_pos j with h0 | h0
      · rw [h0] at e; simp at e
      · exact h0
    apply h4 hj
    have hl : ((s.dropWhile p).take j).length = t.length + 1 := by rw [e]; simp
    rw [List.length_take] at hl
    have : ((s.dropWhile p).take j)[j - 1]? = some c := by
      rw [e, List.getElem?_append_right (by omega), show j - 1 - t.length = 0 by omega]; rfl
    rw [List.getElem?_take_of_lt (by omega)] at this
    exact this

/-! ## Format -/

theorem findChar_none {s : List UInt8} {c : UInt8} {a : Nat} (h : Str.findChar s c a = none) : c ∉ s.drop a := by
  unfold Str.findChar at h
  rw [Option.map_eq_none_iff, List.findIdx?_eq_none_iff] at h
  intro hc; have := h c hc; simp at this

theorem findChar_some {s : List UInt8} {c : UInt8} {a j : Nat} (h : Str.findChar s c a = some j) :
    ∃ m t, s.drop a = m ++ c :: t ∧ c ∉ m ∧ j = a + m.length := by
  unfold Str.findChar at h
  rw [Option.map_eq_some_iff] at h
  obtain ⟨i, hi, rfl⟩ := h
  rw [List.findIdx?_eq_some_iff_getElem] at hi
  obtain ⟨hlt, hp, hq⟩ := hi
  refine ⟨(s.drop a).take i, (s.drop a).drop (i + 1), ?_, ?_, ?_⟩
  · have : (s.drop a)[i] = c := by simpa using hp
    rw [← this, ← List.drop_eq_getElem_cons, List.take_append_drop]
  · intro hc
    obtain ⟨k, hk, e⟩ := List.getElem_of_mem hc
    rw [List.length_take] at hk
    have := hq k (by omega)
    rw [List.getElem_take] at e
    simp [e] at this
  · rw [List.length_take]; omega

/-- One argument: either there is a group, which is consumed, or nothing happens. -/
theorem formatHelper_cases (oss t v : List UInt8) :
    (NoGroup t ∧ Str.formatHelper (oss, t) v = (oss, t)) ∨
    (∃ pre inner rest, t = pre ++ 123 :: (inner ++ 125 :: rest) ∧ 123 ∉ pre ∧ 125 ∉ inner ∧
      Str.formatHelper (oss, t) v = (oss ++ (pre ++ v), rest)) := by
  unfold Str.formatHelper
  simp only
  cases h1 : Str.findChar t 123 0 with
  | none =>
    left
    have := findChar_none h1
    rw [List.drop_zero] at this
    refine ⟨?_, ?_⟩
    · rintro a b rfl; simp at this
    · simp only
  | some i =>
    obtain ⟨pre, t', e, hpre, hi⟩ := findChar_some h1
    rw [List.drop_zero] at e
    rw [Nat.zero_add] at hi
    subst hi
    have hd : t.drop (pre.length + 1) = t' := by
      rw [e, show pre.length + 1 = (pre ++ [123]).length by simp, show pre ++ 123 :: t' = (pre ++ [123]) ++ t' by simp,
        List.drop_left]
    simp only
    cases h2 : Str.findChar t 125 (pre.length + 1) with
    | none =>
      left
      have := findChar_none h2
      rw [hd] at this
      refine ⟨?_, rfl⟩
      intro a b hab hmem
      rw [e] at hab
      -- the first `{` is at or before the one chosen
      have hle : pre.length ≤ a.length := by
        by_contra hlt
        have h3 : (pre ++ 123 :: t')[a.length]? = some 123 := by rw [hab]; simp
        rw [List.getElem?_append_left (by omega)] at h3
        exact hpre (List.mem_of_getElem? h3)
      have hb : b <:+ t' := by
        have e1 : b = (pre ++ 123 :: t').drop (a.length + 1) := by
          rw [hab, show a.length + 1 = (a ++ [123]).length by simp, show a ++ 123 :: b = (a ++ [123]) ++ b by simp, List.drop_left]
        have e2 : t' = (pre ++ 123 :: t').drop (pre.length + 1) := by
          rw [show pre.length + 1 = (pre ++ [123]).length by simp, show pre ++ 123 :: t' = (pre ++ [123]) ++ t' by simp,
            List.drop_left]
        rw [e1]
        conv => rhs; rw [e2]
        rw [show a.length + 1 = (pre.length + 1) + (a.length - pre.length) by omega, ← List.drop_drop]
        exact List.drop_suffix _ _
      exact this (hb.subset hmem)
    | some j =>
      right
      obtain ⟨inner, rest, e', hinner, hj⟩ := findChar_some h2
      rw [hd] at e'
      subst hj
      refine ⟨pre, inner, rest, by rw [e, e'], hpre, hinner, ?_⟩
      simp only
      rw [e, e', List.take_left]
      congr 1
      rw [show pre ++ 123 :: (inner ++ 125 :: rest) = (pre ++ [123] ++ inner ++ [125]) ++ rest by simp,
        List.drop_left' (by simp; omega)]

theorem format_fold (args : List (List UInt8)) : ∀ (oss t : List UInt8),
    ∃ r, Formatted t args r ∧ (args.foldl Str.formatHelper (oss, t)).1 ++ (args.foldl Str.formatHelper (oss, t)).2 = oss ++ r := by
  induction args with
  | nil => intro oss t; exact ⟨t, .noArgs t, rfl⟩
  | cons v args ih =>
    intro oss t
    rw [List.foldl_cons]
    rcases formatHelper_cases oss t v with ⟨hn, e⟩ | ⟨pre, inner, rest, ht, hpre, hinner, e⟩
    · rw [e]
      obtain ⟨r, hr, hre⟩ := ih oss t
      have : r = t := by
        cases hr with
        | noArgs => rfl
        | noGroup => rfl
        | group pre inner rest v r args h1 h2 h3 => exact absurd (by simp) (hn pre (inner ++ 125 :: rest) rfl)
      subst this
      exact ⟨r, .noGroup r _ hn, hre⟩
    · rw [e]
      obtain ⟨r, hr, hre⟩ := ih (oss ++ (pre ++ v)) rest
      refine ⟨pre ++ v ++ r, ?_, by rw [hre]; simp⟩
      rw [ht]
      exact .group pre inner rest v r args hpre hinner hr

/-- The meaning of a format string is unique. -/
theorem Formatted.unique {t : List UInt8} {args : List (List UInt8)} {r r' : List UInt8} (h : Formatted t args r)
    (h' : Formatted t args r') : r = r' := by
  have first : ∀ {x : UInt8} {a b c d : List UInt8}, x ∉ a → x ∉ c → a ++ x :: b = c ++ x :: d → a = c ∧ b = d := by
    intro x a
    induction a with
    | nil =>
      intro b c d _ hc e
      cases c with
      | nil => simpa using e
      | cons y c => simp at e hc; exact absurd e.1 hc.1
    | cons z a ih =>
      intro b c d ha hc e
      cases c with
      | nil => simp at e ha; exact absurd e.1.symm ha.1
      | cons y c =>
        simp at e ha hc
        obtain ⟨h1, h2⟩ := ih ha.2 hc.2 e.2
        exact ⟨by rw [e.1, h1], h2⟩
  induction h generalizing r' with
  | noArgs t => cases h' <;> rfl
  | noGroup t args hn =>
    cases h' with
    | noArgs => rfl
    | noGroup => rfl
    | group pre inner rest v r args h1 h2 h3 => exact absurd (by simp) (hn pre (inner ++ 125 :: rest) rfl)
  | group pre inner rest v r args h1 h2 h3 ih =>
    generalize hg : pre ++ 123 :: (inner ++ 125 :: rest) = u at h'
    cases h' with
    | noGroup _ _ hn => exact absurd (by simp) (hn pre (inner ++ 125 :: rest) hg.symm)
    | group pre' inner' rest' _ r' _ h1' h2' h3' =>
      obtain ⟨e1, e2⟩ := first h1 h1' hg
      obtain ⟨-, e3⟩ := first h2 h2' e2
      subst e3
      rw [e1, ih h3']

end Pyincpp
