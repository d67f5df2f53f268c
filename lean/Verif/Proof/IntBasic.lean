import Verif.Spec.Int
import Verif.Proof.Loops
import Mathlib.Tactic.Ring
import Mathlib.Tactic.Linarith
import Mathlib.Tactic.Positivity
import Mathlib.Data.List.DropRight
import Mathlib.Data.Nat.Digits.Lemmas

/-! # Digit vectors: positional value, canonical form, `trim` -/

namespace Pyincpp

/-- Value of a digit vector, least significant digit first. -/
def val : List ℤ → ℤ
  | [] => 0
  | d :: ds => d + 10 * val ds

/-- All elements are decimal digits. -/
def Digs (v : List ℤ) : Prop := ∀ (j : ℕ) (h : j < v.length), 0 ≤ v[j] ∧ v[j] ≤ 9

@[simp] theorem val_nil : val [] = 0 := rfl
@[simp] theorem val_cons (d : ℤ) (ds : List ℤ) : val (d :: ds) = d + 10 * val ds := rfl

theorem val_append (a b : List ℤ) : val (a ++ b) = val a + 10 ^ a.length * val b := by
  induction a with
  | nil => simp
  | cons d ds ih => simp [ih, pow_succ]; ring

@[simp] theorem val_replicate_zero (n : ℕ) : val (List.replicate n 0) = 0 := by
  induction n with
  | zero => simp
  | succ n ih => simp [List.replicate_succ, ih]

theorem val_set (v : List ℤ) (i : ℕ) (x : ℤ) (h : i < v.length) :
    val (v.set i x) = val v + (x - v[i]) * 10 ^ i := by
  induction v generalizing i with
  | nil => simp at h
  | cons d ds ih =>
    cases i with
    | zero => simp; ring
    | succ i =>
      have h' : i < ds.length := by simpa using h
      simp [ih i h', pow_succ]; ring

theorem val_take_succ (v : List ℤ) (i : ℕ) (h : i < v.length) :
    val (v.take (i + 1)) = val (v.take i) + v[i] * 10 ^ i := by
  rw [List.take_succ_eq_append_getElem h, val_append]
  have : (v.take i).length = i := by simp; omega
  rw [this]; simp; ring

theorem Digs.cons {d : ℤ} {ds : List ℤ} : Digs (d :: ds) ↔ (0 ≤ d ∧ d ≤ 9) ∧ Digs ds := by
  constructor
  · intro h
    refine ⟨?_, fun j hj => ?_⟩
    · have := h 0 (by simp)
      simpa using this
    · have := h (j + 1) (by simpa using hj)
      simpa using this
  · rintro ⟨h, h'⟩ j hj
    cases j with
    | zero => simpa using h
    | succ j =>
      have := h' j (by simpa using hj)
      simpa using this

theorem digs_nil : Digs [] := fun j h => absurd h (by simp)

theorem digs_iff_mem {v : List ℤ} : Digs v ↔ ∀ d ∈ v, 0 ≤ d ∧ d ≤ 9 := by
  constructor
  · intro h d hd
    obtain ⟨j, hj, rfl⟩ := List.mem_iff_getElem.mp hd
    exact h j hj
  · intro h j hj
    exact h _ (List.getElem_mem hj)

theorem val_nonneg {v : List ℤ} (h : Digs v) : 0 ≤ val v := by
  induction v with
  | nil => simp
  | cons d ds ih => have := Digs.cons.mp h; have := ih this.2; simp; omega

theorem val_lt {v : List ℤ} (h : Digs v) : val v < 10 ^ v.length := by
  induction v with
  | nil => simp
  | cons d ds ih =>
    have h' := Digs.cons.mp h
    have := ih h'.2
    simp [pow_succ]; linarith

theorem digs_take {v : List ℤ} (h : Digs v) (n : ℕ) : Digs (v.take n) := by
  intro j hj
  have hj' : j < v.length := by simp at hj; omega
  have := h j hj'
  simpa using this

/-- A digit at position `i` contributes at most the whole value. -/
theorem val_ge_digit {v : List ℤ} (h : ∀ (j : ℕ) (h : j < v.length), 0 ≤ v[j]) (i : ℕ) (hi : i < v.length) :
    v[i] * 10 ^ i ≤ val v := by
  induction v generalizing i with
  | nil => simp at hi
  | cons d ds ih =>
    have h0 : 0 ≤ d := by
      have := h 0 (by simp)
      simpa using this
    have hds : ∀ (j : ℕ) (h : j < ds.length), 0 ≤ ds[j] := fun j hj => by
      have := h (j + 1) (by simpa using hj)
      simpa using this
    have hv : 0 ≤ val ds := by
      clear ih h hi
      induction ds with
      | nil => simp
      | cons e es ih' =>
        have : 0 ≤ e := by
          have := hds 0 (by simp)
          simpa using this
        have := ih' (fun j hj => by
          have := hds (j + 1) (by simpa using hj)
          simpa using this)
        simp; omega
    cases i with
    | zero => simp; exact hv
    | succ i =>
      have := ih hds i (by simpa using hi)
      simp [pow_succ]; linarith

/-! ## casts between ℕ digits and vectors -/

theorem val_map_cast (l : List ℕ) : val (l.map (fun d : ℕ => (d : ℤ))) = ((Nat.ofDigits 10 l : ℕ) : ℤ) := by
  induction l with
  | nil => simp
  | cons d ds ih => simp [ih, Nat.ofDigits_cons]

theorem digs_map_cast {l : List ℕ} (h : ∀ d ∈ l, d < 10) : Digs (l.map (fun d : ℕ => (d : ℤ))) := by
  rw [digs_iff_mem]
  intro d hd
  obtain ⟨n, hn, rfl⟩ := List.mem_map.mp hd
  have := h n hn
  omega

theorem exists_nat_digits {v : List ℤ} (h : Digs v) : ∃ l : List ℕ, v = l.map (fun d : ℕ => (d : ℤ)) ∧ ∀ d ∈ l, d < 10 := by
  induction v with
  | nil => exact ⟨[], rfl, by simp⟩
  | cons d ds ih =>
    have h' := Digs.cons.mp h
    obtain ⟨l, e, hl⟩ := ih h'.2
    refine ⟨d.toNat :: l, ?_, ?_⟩
    · simp [e]; omega
    · intro x hx
      rcases List.mem_cons.mp hx with rfl | hx
      · omega
      · exact hl x hx

/-! ## facts about `enc` -/

theorem enc_sign (z : ℤ) : (enc z).sign = z.sign := by unfold enc; exact rfl

theorem enc_digs (z : ℤ) : Digs (enc z).chunks :=
  digs_map_cast (fun _ hd => Nat.digits_lt_base (by norm_num) hd)

theorem enc_val (z : ℤ) : val (enc z).chunks = |z| := by
  simp only [enc]
  rw [val_map_cast, Nat.ofDigits_digits]
  simp

theorem enc_getLast (z : ℤ) (h : (enc z).chunks ≠ []) : (enc z).chunks.getLast h ≠ 0 := by
  simp only [enc] at h ⊢
  have hn : Nat.digits 10 z.natAbs ≠ [] := by simpa using h
  rw [List.getLast_map]
  have := Nat.getLast_digit_ne_zero 10 (m := z.natAbs) (by
    intro h0; exact hn (by rw [h0]; simp))
  exact_mod_cast this

theorem enc_nil_iff (z : ℤ) : (enc z).chunks = [] ↔ z = 0 := by
  simp [enc, Nat.digits_eq_nil_iff_eq_zero]

theorem enc_sign_eq_zero (z : ℤ) : (enc z).sign = 0 ↔ z = 0 := by
  simp [enc, Int.sign_eq_zero_iff_zero]

/-- The canonical object is determined by digits, no leading zero, and sign. -/
theorem eq_enc {s : ℤ} {v : List ℤ} (hd : Digs v) (hl : ∀ h : v ≠ [], v.getLast h ≠ 0)
    (hs : s = if v = [] then 0 else s) (hs1 : v ≠ [] → s = 1 ∨ s = -1) :
    ({ sign := s, chunks := v } : BInt) = enc (s * val v) := by
  obtain ⟨l, rfl, hl10⟩ := exists_nat_digits hd
  have hdig : Nat.digits 10 (Nat.ofDigits 10 l) = l := by
    refine Nat.digits_ofDigits 10 (by norm_num) l hl10 ?_
    intro hne
    have := hl (by simpa using hne)
    rw [List.getLast_map] at this
    exact_mod_cast this
  by_cases hnil : l = []
  · subst hnil
    simp at hs
    simp [enc, hs]
  · have hne : (l.map (fun d : ℕ => (d : ℤ))) ≠ [] := by simpa using hnil
    have hpos : 0 < Nat.ofDigits 10 l := by
      rcases Nat.eq_zero_or_pos (Nat.ofDigits 10 l) with h0 | h0
      · rw [h0] at hdig; simp at hdig; exact absurd hdig hnil
      · exact h0
    have hv : val (l.map (fun d : ℕ => (d : ℤ))) = ((Nat.ofDigits 10 l : ℕ) : ℤ) := val_map_cast l
    rcases hs1 hne with rfl | rfl
    · simp only [enc, hv, one_mul, Int.natAbs_natCast, hdig]
      congr 1
      exact (Int.sign_eq_one_of_pos (by exact_mod_cast hpos)).symm
    · simp only [enc, hv, neg_mul, one_mul, Int.natAbs_neg, Int.natAbs_natCast, hdig]
      congr 1
      rw [Int.sign_neg, Int.sign_eq_one_of_pos (by exact_mod_cast hpos)]

theorem enc_chunks_pos {z : ℤ} : (enc z).chunks = (enc |z|).chunks := by
  simp only [enc, Int.natAbs_abs]

theorem enc_with_sign_one {z : ℤ} (h : z ≠ 0) : ({ enc z with sign := 1 } : BInt) = enc |z| := by
  have : (0 : ℤ) < |z| := abs_pos.mpr h
  have e : enc |z| = { sign := 1, chunks := (enc z).chunks } := by
    simp only [enc]
    rw [Int.sign_eq_one_of_pos this, Int.natAbs_abs]
  rw [e]

theorem neg_enc (z : ℤ) : (enc z).neg = enc (-z) := by
  simp [BInt.neg, enc, Int.sign_neg]

theorem enc_injective : Function.Injective enc := by
  intro a b h
  have h1 : a.sign = b.sign := congrArg BInt.sign h
  have h2 : |a| = |b| := by
    rw [← enc_val a, ← enc_val b, h]
  rw [← Int.sign_mul_abs a, ← Int.sign_mul_abs b, h1, h2]

/-! ## trim -/

theorem val_reverse_dropWhile (l : List ℤ) : val (l.dropWhile (· == 0)).reverse = val l.reverse := by
  induction l with
  | nil => rfl
  | cons d ds ih =>
    by_cases h : d = 0
    · subst h
      simp [val_append, ih]
    · simp [h]

theorem trim_enc {s : ℤ} {v : List ℤ} (hd : Digs v) (hs : s = 1 ∨ s = -1) :
    BInt.trim { sign := s, chunks := v } = enc (s * val v) := by
  have hv : val (v.reverse.dropWhile (· == 0)).reverse = val v := by
    rw [val_reverse_dropWhile, List.reverse_reverse]
  unfold BInt.trim
  simp only
  set c := (v.reverse.dropWhile (· == 0)).reverse with hc
  have hcd : Digs c := by
    rw [digs_iff_mem] at hd ⊢
    intro d hdm
    apply hd
    rw [hc, List.mem_reverse] at hdm
    exact List.mem_reverse.mp ((List.dropWhile_sublist _).subset hdm)
  have hlast : ∀ h : c ≠ [], c.getLast h ≠ 0 := by
    intro h
    have h' : v.reverse.dropWhile (· == 0) ≠ [] := by
      intro h0; apply h; rw [hc, h0]; rfl
    have := List.head_dropWhile_not (· == (0:ℤ)) h'
    rw [List.getLast_congr h (by simpa using h') hc, List.getLast_reverse]
    simpa using this
  by_cases hnil : c = []
  · have h0 : val v = 0 := by rw [← hv, hnil]; rfl
    rw [hnil, h0]
    simp [enc]
  · have hemp : c.isEmpty = false := by simpa using hnil
    rw [hemp]
    simp only [Bool.false_eq_true, if_false]
    rw [eq_enc hcd hlast (by simp [hnil]) (fun _ => hs), hv]

end Pyincpp
