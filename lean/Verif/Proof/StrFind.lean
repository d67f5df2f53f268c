import Verif.Spec.Str
import Verif.Proof.ListMore

/-! # Searching in strings -/

namespace Pyincpp
open Lst

theorem occursAt_iff {s p : List UInt8} {i : Nat} : OccursAt s p i ↔ i ≤ s.length ∧ p <+: s.drop i := by
  constructor
  · rintro ⟨a, b, rfl, rfl⟩
    refine ⟨by simp, ?_⟩
    rw [List.append_assoc, List.drop_left]
    exact List.prefix_append p b
  · rintro ⟨h, b, hb⟩
    refine ⟨s.take i, b, ?_, by simp [h]⟩
    rw [List.append_assoc, hb, List.take_append_drop]

theorem OccursAt.bound {s p : List UInt8} {i : Nat} (h : OccursAt s p i) : i + p.length ≤ s.length := by
  obtain ⟨a, b, rfl, rfl⟩ := h; simp

theorem search_spec (p s : List UInt8) :
    match Str.search p s with
    | none => ∀ i, ¬ OccursAt s p i
    | some i => FirstAt s p i := by
  induction s with
  | nil =>
    cases p with
    | nil => simp [Str.search, FirstAt]; exact ⟨[], [], rfl, rfl⟩
    | cons c p => simp [Str.search]; intro i h; have := h.bound; simp at this
  | cons c cs ih =>
    simp only [Str.search]
    by_cases hp : p.isPrefixOf (c :: cs) = true
    · rw [if_pos hp]
      refine ⟨occursAt_iff.2 ⟨by simp, ?_⟩, by simp⟩
      simpa using List.isPrefixOf_iff_prefix.1 hp
    · rw [if_neg hp]
      have h0 : ¬ OccursAt (c :: cs) p 0 := by
        intro h; apply hp; rw [List.isPrefixOf_iff_prefix]; simpa using (occursAt_iff.1 h).2
      have hs : ∀ i, OccursAt (c :: cs) p (i + 1) ↔ OccursAt cs p i := by
        intro i; rw [occursAt_iff, occursAt_iff]; simp
      cases h : Str.search p cs with
      | none =>
        rw [h] at ih
        simp only [Option.map_none]
        intro i
        cases i with
        | zero => exact h0
        | succ i => rw [hs]; exact ih i
      | some i =>
        rw [h] at ih
        simp only [Option.map_some]
        refine ⟨(hs i).2 ih.1, ?_⟩
        intro j hj
        cases j with
        | zero => exact h0
        | succ j => rw [hs]; exact ih.2 j (by omega)

theorem FirstAt.unique {s p : List UInt8} {i j : Nat} (h : FirstAt s p i) (h' : FirstAt s p j) : i = j := by
  rcases Nat.lt_trichotomy i j with h1 | h1 | h1
  · exact absurd h.1 (h'.2 i h1)
  · exact h1
  · exact absurd h'.1 (h.2 j h1)

theorem search_eq_some {s p : List UInt8} {i : Nat} (h : FirstAt s p i) : Str.search p s = some i := by
  have := search_spec p s
  cases hs : Str.search p s with
  | none => rw [hs] at this; exact absurd h.1 (this i)
  | some j => rw [hs] at this; rw [this.unique h]

theorem search_eq_none {s p : List UInt8} (h : ∀ i, ¬ OccursAt s p i) : Str.search p s = none := by
  have := search_spec p s
  cases hs : Str.search p s with
  | none => rfl
  | some j => rw [hs] at this; exact absurd this.1 (h j)

theorem Str.size_eq' {s : List UInt8} (h : s.length ≤ maxLen) : Str.size s = s.length := Lst.size_eq h

/-- `find` where it is defined. -/
theorem find_run {s : List UInt8} (p : List UInt8) (hs : s.length ≤ maxLen) {start stop : Int} (h0 : 0 ≤ start)
    (h1 : start ≤ s.length) (h2 : start ≤ stop) :
    Str.find s p start stop =
      match Str.search p ((s.drop start.toNat).take ((min stop s.length) - start).toNat) with
      | none => .ok (-1)
      | some i => .ok (start + i) := by
  unfold Str.find
  rw [Str.size_eq' hs, if_neg (by omega)]
  have hm : (if stop > (s.length : Int) then (s.length : Int) else stop) = min stop s.length := by
    split <;> omega
  simp only [hm]
  unfold maxLen at hs
  rw [isub_ok (by rw [isInt_iff]; omega), Res.ok_bind]
  unfold Str.view
  rw [if_neg (by omega), if_neg (by omega), Res.ok_bind]
  have hsp := search_spec p ((s.drop start.toNat).take ((min stop s.length) - start).toNat)
  cases h : Str.search p ((s.drop start.toNat).take ((min stop s.length) - start).toNat) with
  | none => rfl
  | some i =>
    rw [h] at hsp
    have hb := hsp.1.bound
    simp only [List.length_take, List.length_drop] at hb
    simp only
    rw [wrap32_eq (by rw [isInt_iff]; omega), iadd_ok (by rw [isInt_iff]; omega)]

/-- Occurrences in a window. -/
theorem occurs_window {s p : List UInt8} {a n i : Nat} (h : a + n ≤ s.length) :
    OccursAt ((s.drop a).take n) p i ↔ i + p.length ≤ n ∧ OccursAt s p (a + i) := by
  constructor
  · intro ho
    have hb := ho.bound
    rw [List.length_take, List.length_drop] at hb
    refine ⟨by omega, ?_⟩
    obtain ⟨b, c, hbc, hl⟩ := ho
    refine ⟨s.take a ++ b, c ++ s.drop (a + n), ?_, by simp; omega⟩
    have e1 : s = s.take a ++ ((s.drop a).take n ++ s.drop (a + n)) := by
      rw [show s.drop (a + n) = (s.drop a).drop n by rw [List.drop_drop], List.take_append_drop, List.take_append_drop]
    rw [hbc] at e1
    simpa [List.append_assoc] using e1
  · rintro ⟨hn, ho⟩
    rw [occursAt_iff] at ho ⊢
    obtain ⟨h1, h2⟩ := ho
    refine ⟨by rw [List.length_take, List.length_drop]; omega, ?_⟩
    rw [List.drop_take, List.drop_drop]
    rw [List.prefix_take_iff]
    exact ⟨h2, by omega⟩

/-- `find` from the end of a prefix to the end of the string. -/
theorem find_from {d t p : List UInt8} (hs : (d ++ t).length ≤ maxLen) :
    Str.find (d ++ t) p d.length = match Str.search p t with | none => .ok (-1) | some i => .ok (d.length + i) := by
  have hlen : (d ++ t).length = d.length + t.length := by simp
  rw [find_run p hs (by omega) (by omega) (by unfold INT_MAX; unfold maxLen at hs; omega)]
  have e : (((d ++ t).drop (d.length : Int).toNat).take ((min INT_MAX ((d ++ t).length : Int)) - d.length).toNat) = t := by
    rw [Int.toNat_natCast, List.drop_left, List.take_of_length_le]
    unfold INT_MAX; unfold maxLen at hs; omega
  rw [e]

/-! ## The scan -/

theorem scan_exists {p : List UInt8} (hp : p ≠ []) (s : List UInt8) : ∃ ps, Scan p s ps := by
  induction h : s.length using Nat.strong_induction_on generalizing s with
  | _ n ih =>
    have := search_spec p s
    cases hs : Str.search p s with
    | none => rw [hs] at this; exact ⟨[s], .done s this⟩
    | some i =>
      rw [hs] at this
      obtain ⟨a, t, rfl, ha⟩ := this.1
      have hpl : 0 < p.length := List.length_pos_iff.2 hp
      have hl : t.length < n := by rw [← h]; simp; omega
      obtain ⟨ps, hps⟩ := ih t.length hl t rfl
      exact ⟨a :: ps, .step a t ps (by rw [ha]; exact this) hps⟩

theorem Scan.ne_nil {p s : List UInt8} {ps : List (List UInt8)} (h : Scan p s ps) : ps ≠ [] := by
  cases h <;> simp

theorem Scan.unique {p s : List UInt8} {ps qs : List (List UInt8)} (h : Scan p s ps) (h' : Scan p s qs) : ps = qs := by
  induction h generalizing qs with
  | done s hs =>
    cases h' with
    | done => rfl
    | step a t ps hf => exact absurd hf.1 (hs _)
  | step a t ps hf _ ih =>
    generalize hg : a ++ p ++ t = u at h' hf
    cases h' with
    | done _ hs => exact absurd hf.1 (hs _)
    | step a' t' ps' hf' hsc =>
      have hal : a.length = a'.length := hf.unique hf'
      rw [List.append_assoc, List.append_assoc] at hg
      obtain ⟨e1, e2⟩ := List.append_inj hg hal
      obtain ⟨_, e3⟩ := List.append_inj e2 rfl
      subst e3
      rw [e1, ih hsc]

theorem Scan.glue {p s : List UInt8} {ps : List (List UInt8)} (h : Scan p s ps) : Pyincpp.glue p ps = s := by
  induction h with
  | done s _ => rfl
  | step a t ps _ hsc ih =>
    cases ps with
    | nil => exact absurd rfl hsc.ne_nil
    | cons b ps => rw [Pyincpp.glue, ih]

theorem Scan.no_piece {p s : List UInt8} {ps : List (List UInt8)} (hp : p ≠ []) (h : Scan p s ps) :
    ∀ a ∈ ps, ∀ i, ¬ OccursAt a p i := by
  induction h with
  | done s hs => intro a ha; simp at ha; subst ha; exact hs
  | step a t ps hf _ ih =>
    intro x hx
    rcases List.mem_cons.1 hx with rfl | hx
    · intro i hi
      have hb := hi.bound
      have hpl : 0 < p.length := List.length_pos_iff.2 hp
      obtain ⟨b, c, e, hl⟩ := hi
      refine hf.2 i (by omega) ⟨b, c ++ p ++ t, ?_, hl⟩
      rw [e]; simp [List.append_assoc]
    · exact ih x hx

theorem glue_length (q : List UInt8) (ps : List (List UInt8)) (h : ps ≠ []) :
    ((glue q ps).length : Int) = (ps.map List.length).sum + ((ps.length : Int) - 1) * q.length := by
  induction ps with
  | nil => exact absurd rfl h
  | cons a ps ih =>
    cases ps with
    | nil => simp [glue]
    | cons b ps =>
      have := ih (by simp)
      rw [glue, List.length_append, List.length_append]
      push_cast
      rw [this]
      simp only [List.map_cons, List.sum_cons, List.length_cons]
      push_cast
      ring

theorem Scan.length_le {p s : List UInt8} {ps : List (List UInt8)} (hp : p ≠ []) (h : Scan p s ps) :
    ps.length ≤ s.length + 1 := by
  have hpl : 0 < p.length := List.length_pos_iff.2 hp
  induction h with
  | done s hs => simp
  | step a t ps hf _ ih => simp; omega

/-- What a round of the loops finds. -/
theorem find_scan_done {p d t : List UInt8} (hs : (d ++ t).length ≤ maxLen) (h : ∀ i, ¬ OccursAt t p i) :
    Str.find (d ++ t) p d.length = .ok (-1) := by
  rw [find_from hs, search_eq_none h]

theorem find_scan_step {p d a t : List UInt8} (hs : (d ++ (a ++ p ++ t)).length ≤ maxLen)
    (h : FirstAt (a ++ p ++ t) p a.length) :
    Str.find (d ++ (a ++ p ++ t)) p d.length = .ok (d.length + a.length) := by
  rw [find_from hs, search_eq_some h]

theorem countLoop_run {p t : List UInt8} {ps : List (List UInt8)} (h : Scan p t ps) :
    ∀ (d : List UInt8) (k : Nat) (cnt : Nat), (d ++ t).length ≤ maxLen → cnt ≤ d.length → p ≠ [] → ps.length ≤ k →
      Str.countLoop (d ++ t) p k d.length cnt = .ok ((cnt : Int) + ps.length - 1) := by
  induction h with
  | done t hn =>
    intro d k cnt hs hc hp hk
    obtain ⟨k, rfl⟩ : ∃ j, k = j + 1 := ⟨k - 1, by simp at hk; omega⟩
    rw [Str.countLoop, find_scan_done (by omega) hn]
    simp only [Res.ok_bind, if_true, Res.pure_eq, List.length_singleton]
    exact congrArg Res.ok (by omega)
  | step a t ps hf hsc ih =>
    intro d k cnt hs hc hp hk
    have hpl : 0 < p.length := List.length_pos_iff.2 hp
    obtain ⟨k, rfl⟩ : ∃ j, k = j + 1 := ⟨k - 1, by simp at hk; omega⟩
    have hlen : (d ++ (a ++ p ++ t)).length = d.length + (a.length + p.length + t.length) := by simp; omega
    rw [Str.countLoop, find_scan_step (by omega) hf]
    simp only [Res.ok_bind]
    have hsz : Str.size p = p.length := Str.size_eq' (by omega)
    have e : d ++ (a ++ p ++ t) = (d ++ a ++ p) ++ t := by simp [List.append_assoc]
    have e2 : ((d.length : Int) + a.length + p.length) = (((d ++ a ++ p).length : Nat) : Int) := by simp; omega
    have hi1 : iadd ((d.length : Int) + a.length) p.length = .ok ((d.length : Int) + a.length + p.length) :=
      iadd_ok (by rw [isInt_iff]; unfold maxLen at hs; omega)
    have hi2 : iadd (cnt : Int) 1 = .ok ((cnt + 1 : Nat) : Int) := by
      rw [iadd_ok (by rw [isInt_iff]; unfold maxLen at hs; omega), Nat.cast_add, Nat.cast_one]
    have := ih (d ++ a ++ p) k (cnt + 1) (by rw [← e]; exact hs) (by simp; omega) hp (by simp at hk; omega)
    rw [if_neg (by omega), hsz, hi1, Res.ok_bind, hi2, Res.ok_bind, e, e2, this]
    apply congrArg Res.ok
    rw [List.length_cons]; push_cast; ring

theorem substr_mid {d a t : List UInt8} : Str.substr (d ++ (a ++ t)) d.length a.length = .ok a := by
  unfold Str.substr
  rw [if_neg (by simp; omega), if_neg (by omega)]
  simp

theorem substr_end {d t : List UInt8} : Str.substr (d ++ t) d.length (-1) = .ok t := by
  unfold Str.substr
  rw [if_neg (by simp), if_pos (by omega)]
  simp

/-- The loop of `replace` and the final append. -/
theorem replaceLoop_run {p q t : List UInt8} {ps : List (List UInt8)} (h : Scan p t ps) :
    ∀ (d : List UInt8) (k : Nat) (buf : List UInt8), (d ++ t).length ≤ maxLen → p ≠ [] → ps.length ≤ k →
      (do let (a, b) ← Str.replaceLoop (d ++ t) p q k d.length buf
          let sub ← Str.substr (d ++ t) a (-1)
          pure (b ++ sub)) = Res.ok (buf ++ glue q ps) := by
  induction h with
  | done t hn =>
    intro d k buf hs hp hk
    obtain ⟨k, rfl⟩ : ∃ j, k = j + 1 := ⟨k - 1, by simp at hk; omega⟩
    rw [Str.replaceLoop, find_scan_done hs hn]
    simp only [Res.ok_bind, if_true, Res.pure_eq, substr_end, glue]
  | step a t ps hf hsc ih =>
    intro d k buf hs hp hk
    have hpl : 0 < p.length := List.length_pos_iff.2 hp
    obtain ⟨k, rfl⟩ : ∃ j, k = j + 1 := ⟨k - 1, by simp at hk; omega⟩
    have hlen : (d ++ (a ++ p ++ t)).length = d.length + (a.length + p.length + t.length) := by simp; omega
    rw [Str.replaceLoop, find_scan_step hs hf]
    simp only [Res.ok_bind]
    have hsz : Str.size p = p.length := Str.size_eq' (by omega)
    have e0 : ((d.length : Int) + a.length - d.length) = a.length := by omega
    have e1 : Str.substr (d ++ (a ++ p ++ t)) d.length a.length = .ok a := by
      rw [List.append_assoc a p t]; exact substr_mid
    have hs' := hs
    unfold maxLen at hs
    rw [if_neg (by omega), hsz, isub_ok (by rw [isInt_iff]; omega), Res.ok_bind, e0, e1, Res.ok_bind,
      iadd_ok (by rw [isInt_iff]; omega), Res.ok_bind]
    have e : d ++ (a ++ p ++ t) = (d ++ a ++ p) ++ t := by simp [List.append_assoc]
    have e2 : ((d.length : Int) + a.length + p.length) = (((d ++ a ++ p).length : Nat) : Int) := by simp; omega
    have := ih (d ++ a ++ p) k (buf ++ (a ++ q)) (by rw [← e]; exact hs') hp (by simp at hk; omega)
    rw [e, e2, this]
    cases ps with
    | nil => exact absurd rfl hsc.ne_nil
    | cons b ps => simp [glue, List.append_assoc]

theorem onCopy_run {α : Type} {m : Meth (List α) Unit} {l l' : List α} (h : m l = (.ok (), l')) : Lst.onCopy m l = .ok l' := by
  unfold Lst.onCopy; rw [h]

theorem onCopy_throw {α : Type} {m : Meth (List α) Unit} {l l' : List α} {e : String} (h : m l = (.throw e, l')) :
    Lst.onCopy m l = .throw e := by
  unfold Lst.onCopy; rw [h]

/-- What `split` leaves: the list of pieces if it fits. -/
def fitted (l : List (List UInt8)) : Res (List (List UInt8)) := if l.length ≤ maxLen then .ok l else .throw msgFull

theorem append_fitted (e : List UInt8) (l : List (List UInt8)) (hl : l.length ≤ maxLen) :
    Lst.onCopy (Lst.append e) l = fitted (l ++ [e]) := by
  unfold fitted
  by_cases h : l.length < maxLen
  · rw [onCopy_run (append_ok h), if_pos (by rw [List.length_append, List.length_singleton]; omega)]
  · rw [onCopy_throw (append_full (by omega)), if_neg (by rw [List.length_append, List.length_singleton]; omega)]

/-- The loop of `split` and the final append. -/
theorem splitLoop_run {p t : List UInt8} {keep : Bool} {ps : List (List UInt8)} (h : Scan p t ps) :
    ∀ (d : List UInt8) (k : Nat) (acc : List (List UInt8)), (d ++ t).length ≤ maxLen → acc.length ≤ d.length → p ≠ [] →
      ps.length ≤ k →
      (do let (a, b) ← Str.splitLoop (d ++ t) p keep k d.length acc
          if keep || a != Str.size (d ++ t) then do
            let sub ← Str.substr (d ++ t) a (-1)
            Lst.onCopy (Lst.append sub) b
          else pure b) = fitted (acc ++ ps.filter (fun a => keep || !a.isEmpty)) := by
  induction h with
  | done t hn =>
    intro d k acc hs hacc hp hk
    obtain ⟨k, rfl⟩ : ∃ j, k = j + 1 := ⟨k - 1, by simp at hk; omega⟩
    have hlen : (d ++ t).length = d.length + t.length := by simp
    rw [Str.splitLoop, find_scan_done (by omega) hn]
    simp only [Res.ok_bind, if_true, Res.pure_eq, substr_end]
    rw [Str.size_eq' (by omega)]
    by_cases ht : t = []
    · subst ht
      cases keep
      · simp [fitted]; omega
      · simp only [Bool.true_or, if_true, append_fitted [] acc (by omega)]; simp
    · have : ((d.length : Int) != ((d ++ t).length : Nat)) = true := by
        have := List.length_pos_iff.2 ht
        simp; exact ht
      have hte : t.isEmpty = false := by simp [ht]
      simp only [this, Bool.or_true, if_true, append_fitted t acc (by omega)]
      simp [hte]
  | step a t ps hf hsc ih =>
    intro d k acc hs hacc hp hk
    have hpl : 0 < p.length := List.length_pos_iff.2 hp
    obtain ⟨k, rfl⟩ : ∃ j, k = j + 1 := ⟨k - 1, by simp at hk; omega⟩
    have hlen : (d ++ (a ++ p ++ t)).length = d.length + (a.length + p.length + t.length) := by simp; omega
    rw [Str.splitLoop, find_scan_step (by omega) hf]
    simp only [Res.ok_bind]
    have hsz : Str.size p = p.length := Str.size_eq' (by omega)
    have e0 : ((d.length : Int) + a.length - d.length) = a.length := by omega
    have e1 : Str.substr (d ++ (a ++ p ++ t)) d.length a.length = .ok a := by
      rw [List.append_assoc a p t]; exact substr_mid
    have hs' := hs
    have e : d ++ (a ++ p ++ t) = (d ++ a ++ p) ++ t := by simp [List.append_assoc]
    have e2 : ((d.length : Int) + a.length + p.length) = (((d ++ a ++ p).length : Nat) : Int) := by simp; omega
    have hi1 : iadd ((d.length : Int) + a.length) p.length = .ok ((d.length : Int) + a.length + p.length) :=
      iadd_ok (by rw [isInt_iff]; unfold maxLen at hs; omega)
    have hi2 : isub ((d.length : Int) + a.length) d.length = .ok (a.length : Int) := by
      rw [isub_ok (by rw [isInt_iff]; unfold maxLen at hs; omega), e0]
    rw [if_neg (by omega), hsz]
    by_cases hskip : keep = false ∧ a = []
    · obtain ⟨rfl, rfl⟩ := hskip
      rw [if_pos (by simp)]
      rw [hi1, Res.ok_bind]
      have := ih (d ++ [] ++ p) k acc (by rw [← e]; exact hs') (by simp; omega) hp (by simp at hk; omega)
      rw [e, e2, this]
      simp
    · rw [if_neg]
      · rw [hi2, Res.ok_bind, e1, Res.ok_bind, onCopy_run (append_ok (e := a) (l := acc) (by omega)), Res.ok_bind, hi1, Res.ok_bind]
        have := ih (d ++ a ++ p) k (acc ++ [a]) (by rw [← e]; exact hs') (by simp; omega) hp (by simp at hk; omega)
        rw [e, e2, this]
        have hk' : (keep || !a.isEmpty) = true := by
          cases keep <;> simp_all
        simp [hk']
      · simp only [Bool.and_eq_true, Bool.not_eq_true', beq_iff_eq, not_and]
        intro hkf hal
        apply hskip
        refine ⟨hkf, ?_⟩
        apply List.eq_nil_of_length_eq_zero; omega

/-- `join`. -/
theorem join_run (s : List UInt8) (l : List (List UInt8)) (hl : l.length ≤ maxLen) : Str.join s l = .ok (glue s l) := by
  cases l with
  | nil => rfl
  | cons a l =>
    unfold Str.join
    have h0 : Lst.isEmpty (a :: l) = false := rfl
    rw [h0, if_neg (by simp)]
    have hget : ∀ i : Nat, (hi : i < (a :: l).length) → Lst.get (a :: l) (i : Int) = .ok ((a :: l)[i]) := by
      intro i hi
      obtain ⟨x, e1, e2⟩ := get_some (l := a :: l) (i := (i : Int)) (p := i) hl (by
        rw [pyIndex_nonneg (by omega) (by omega)]; simp)
      rw [e2]; rw [List.getElem?_eq_getElem hi] at e1; rw [Option.some.inj e1]
    have h1 := hget 0 (by simp)
    simp only [Nat.cast_zero, List.getElem_cons_zero] at h1
    rw [h1, Res.ok_bind, Lst.size_eq hl, Int.toNat_natCast]
    unfold forRange
    have : ∀ (n i : Nat) (buf : List UInt8), i + n = (a :: l).length → 1 ≤ i →
        forUp (fun i buffer => do
          let e ← Lst.get (a :: l) (i : Int)
          pure (buffer ++ (s ++ e))) i n buf = .ok (buf ++ ((a :: l).drop i).flatMap (fun e => s ++ e)) := by
      intro n
      induction n with
      | zero => intro i buf hi _; rw [forUp, List.drop_eq_nil_of_le (by omega)]; simp
      | succ n ih =>
        intro i buf hi h1
        rw [forUp, hget i (by omega), Res.ok_bind, pure_bind]
        rw [ih (i + 1) _ (by omega) (by omega)]
        rw [List.drop_eq_getElem_cons (i := i) (by omega)]
        simp [List.append_assoc]
    rw [this _ 1 a (by simp; omega) (by omega)]
    apply congrArg Res.ok
    simp only [List.drop_succ_cons, List.drop_zero]
    clear this hget h1 h0 hl
    induction l generalizing a with
    | nil => simp [glue]
    | cons b l ih => rw [glue, ← ih b]; simp [List.append_assoc]

end Pyincpp
