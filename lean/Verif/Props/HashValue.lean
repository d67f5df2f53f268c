import Verif.Props.Hash
import Verif.Proof.IntBasic
import Verif.Model.Complex
import Mathlib.Data.Set.Card

/-! # C81: different values, different hashes? (`std::hash` of integers is the identity, as in libstdc++) -/

namespace Pyincpp

/-- The exclusive or of the decimal digits. -/
def digitXor (z : ℤ) : ℕ := (Nat.digits 10 z.natAbs).foldl (· ^^^ ·) 0

theorem hash_fold (l : List ℕ) : ∀ (a : BitVec 64) (n : ℕ),
    (l.map (fun d : ℕ => (d : ℤ))).foldl (fun v d => v ^^^ (BitVec.ofInt 64 d <<< 1)) (a ^^^ (BitVec.ofNat 64 n <<< 1)) =
      a ^^^ (BitVec.ofNat 64 (l.foldl (· ^^^ ·) n) <<< 1) := by
  induction l with
  | nil => intro a n; rfl
  | cons d l ih =>
    intro a n
    rw [List.map_cons, List.foldl_cons, List.foldl_cons, ← ih, BitVec.ofInt_natCast, BitVec.ofNat_xor, BitVec.shiftLeft_xor_distrib,
      BitVec.xor_assoc]

theorem hash_enc (z : ℤ) : BInt.hash (BitVec.ofInt 64) (BitVec.ofInt 64) (enc z) =
    BitVec.ofInt 64 z.sign ^^^ (BitVec.ofNat 64 (digitXor z) <<< 1) := by
  have := hash_fold (Nat.digits 10 z.natAbs) (BitVec.ofInt 64 z.sign) 0
  simpa [BInt.hash, enc, digitXor] using this

theorem xor_lt (l : List ℕ) (h : ∀ d ∈ l, d < 10) : ∀ n < 16, l.foldl (· ^^^ ·) n < 16 := by
  induction l with
  | nil => intro n hn; exact hn
  | cons d l ih =>
    intro n hn
    have hd := h d (by simp)
    exact ih (fun e he => h e (by simp [he])) _ (Nat.xor_lt_two_pow (n := 4) hn (by omega))

theorem digitXor_lt (z : ℤ) : digitXor z < 16 :=
  xor_lt _ (fun _ h => Nat.digits_lt_base (by norm_num) h) 0 (by norm_num)

theorem hash_table : ∀ (s t : Fin 3) (a b : Fin 16),
    BitVec.ofInt 64 ((s : ℤ) - 1) ^^^ (BitVec.ofNat 64 a <<< 1) = BitVec.ofInt 64 ((t : ℤ) - 1) ^^^ (BitVec.ofNat 64 b <<< 1) →
      s = t ∧ a = b := by
  decide +kernel

theorem sign_fin (z : ℤ) : ∃ s : Fin 3, z.sign = (s : ℤ) - 1 := by
  rcases lt_trichotomy z 0 with h | h | h
  · exact ⟨0, by rw [Int.sign_eq_neg_one_of_neg h]; rfl⟩
  · exact ⟨1, by rw [h]; rfl⟩
  · exact ⟨2, by rw [Int.sign_eq_one_of_pos h]; rfl⟩

/-- C81, exact extent for `Int`: two have the same hash exactly when the signs and the exclusive or of their digits agree. -/
theorem C81_int_iff (x y : ℤ) : BInt.hash (BitVec.ofInt 64) (BitVec.ofInt 64) (enc x) = BInt.hash (BitVec.ofInt 64) (BitVec.ofInt 64) (enc y) ↔
    x.sign = y.sign ∧ digitXor x = digitXor y := by
  rw [hash_enc, hash_enc]
  constructor
  · intro h
    obtain ⟨s, hs⟩ := sign_fin x
    obtain ⟨t, ht⟩ := sign_fin y
    rw [hs, ht] at h
    have := hash_table s t ⟨_, digitXor_lt x⟩ ⟨_, digitXor_lt y⟩ h
    exact ⟨by rw [hs, ht, this.1], congrArg Fin.val this.2⟩
  · rintro ⟨h1, h2⟩
    rw [h1, h2]

/-- C81: one-digit numbers are told apart. -/
theorem C81_int_partial (x y : ℤ) (hx : |x| < 10) (hy : |y| < 10)
    (h : BInt.hash (BitVec.ofInt 64) (BitVec.ofInt 64) (enc x) = BInt.hash (BitVec.ofInt 64) (BitVec.ofInt 64) (enc y)) : x = y := by
  rw [C81_int_iff] at h
  have one : ∀ z : ℤ, |z| < 10 → digitXor z = z.natAbs := by
    intro z hz
    unfold digitXor
    have : z.natAbs < 10 := by rw [Int.abs_eq_natAbs] at hz; omega
    by_cases h0 : z.natAbs = 0
    · rw [h0]; rfl
    · rw [Nat.digits_of_lt 10 _ h0 this]; simp
  rw [one x hx, one y hy] at h
  rw [← Int.sign_mul_natAbs x, ← Int.sign_mul_natAbs y, h.1, h.2]

example : |(-7 : ℤ)| < 10 ∧ |(3 : ℤ)| < 10 := by decide

/-- C81 fails for `Int`: all the integers together have at most 33 different hashes; for instance every reordering of the digits
keeps it, and so does appending a digit twice. -/
theorem C81_int_not : (Set.range (fun z : ℤ => BInt.hash (BitVec.ofInt 64) (BitVec.ofInt 64) (enc z))).ncard ≤ 33 ∧
    (∀ x y : ℤ, x.sign = y.sign → (Nat.digits 10 x.natAbs).Perm (Nat.digits 10 y.natAbs) →
      BInt.hash (BitVec.ofInt 64) (BitVec.ofInt 64) (enc x) = BInt.hash (BitVec.ofInt 64) (BitVec.ofInt 64) (enc y)) ∧
    (∀ x : ℤ, 0 < x → ∀ d : ℕ, d < 10 → BInt.hash (BitVec.ofInt 64) (BitVec.ofInt 64) (enc (x * 100 + d * 11)) =
      BInt.hash (BitVec.ofInt 64) (BitVec.ofInt 64) (enc x)) := by
  refine ⟨?_, ?_, ?_⟩
  · let f : Option (Bool × Fin 16) → BitVec 64 := fun o => match o with
      | none => 0
      | some (s, a) => BitVec.ofInt 64 (if s then 1 else -1) ^^^ (BitVec.ofNat 64 a <<< 1)
    have hsub : Set.range (fun z : ℤ => BInt.hash (BitVec.ofInt 64) (BitVec.ofInt 64) (enc z)) ⊆ Set.range f := by
      rintro _ ⟨z, rfl⟩
      simp only [hash_enc]
      rcases lt_trichotomy z 0 with h | h | h
      · exact ⟨some (false, ⟨_, digitXor_lt z⟩), by rw [Int.sign_eq_neg_one_of_neg h]; rfl⟩
      · exact ⟨none, by rw [h]; rfl⟩
      · exact ⟨some (true, ⟨_, digitXor_lt z⟩), by rw [Int.sign_eq_one_of_pos h]; rfl⟩
    refine le_trans (Set.ncard_le_ncard hsub (Set.finite_range f)) ?_
    rw [← Set.image_univ]
    refine le_trans (Set.ncard_image_le Set.finite_univ) ?_
    rw [Set.ncard_univ, Nat.card_eq_fintype_card]
    simp
  · intro x y hs hp
    rw [C81_int_iff]
    exact ⟨hs, hp.foldl_eq' (fun a _ b _ c => by rw [Nat.xor_assoc, Nat.xor_comm a b, ← Nat.xor_assoc]) 0⟩
  · intro x hx d hd
    rw [C81_int_iff]
    obtain ⟨m, rfl⟩ : ∃ m : ℕ, x = m := ⟨x.toNat, by omega⟩
    refine ⟨by rw [Int.sign_eq_one_of_pos hx, Int.sign_eq_one_of_pos (by positivity)], ?_⟩
    unfold digitXor
    have e : ((m : ℤ) * 100 + d * 11).natAbs = d + 10 * (d + 10 * m) := by
      have : ((m : ℤ) * 100 + d * 11) = ((d + 10 * (d + 10 * m) : ℕ) : ℤ) := by push_cast; ring
      rw [this]; rfl
    have hm : 0 < m := by exact_mod_cast hx
    rw [e, Nat.digits_add 10 (by norm_num) d _ hd (Or.inr (by omega)), Nat.digits_add 10 (by norm_num) d _ hd (Or.inr (by omega))]
    simp

/-- C81: fractions with the same numerator or the same denominator are told apart. -/
theorem C81_fraction_partial (x y : Frac) (hx : x.Valid) (hy : y.Valid) (h : x.num = y.num ∨ x.den = y.den)
    (e : Frac.hash (BitVec.ofInt 64) x = Frac.hash (BitVec.ofInt 64) y) : x = y := by
  obtain ⟨n, d⟩ := x
  obtain ⟨n', d'⟩ := y
  have bound : ∀ a : ℤ, |a| ≤ INT_MAX → (BitVec.ofInt 64 a).toInt = a := by
    intro a ha
    unfold INT_MAX at ha
    rw [abs_le] at ha
    rw [BitVec.toInt_ofInt]
    exact Int.bmod_eq_of_le (by omega) (by omega)
  have hd := hx.pos
  have hd2 := hx.den_le
  have hd' := hy.pos
  have hd2' := hy.den_le
  have hn := hx.num_le
  have hn' := hy.num_le
  simp only at hd hd2 hd' hd2' hn hn' h
  unfold Frac.hash at e
  simp only at e
  rcases h with rfl | rfl
  · rw [BitVec.xor_right_inj] at e
    congr 1
    have e := congrArg BitVec.toNat e
    unfold INT_MAX at hd2 hd2'
    obtain ⟨k, rfl⟩ : ∃ k : ℕ, d = k := ⟨d.toNat, by omega⟩
    obtain ⟨k', rfl⟩ : ∃ k : ℕ, d' = k := ⟨d'.toNat, by omega⟩
    simp only [BitVec.toNat_shiftLeft, BitVec.ofInt_natCast, BitVec.toNat_ofNat, Nat.shiftLeft_eq] at e
    omega
  · rw [BitVec.xor_left_inj] at e
    have e := congrArg BitVec.toInt e
    rw [bound n hn, bound n' hn'] at e
    rw [e]

example : (⟨3, 7⟩ : Frac).Valid ∧ (⟨-2, 7⟩ : Frac).Valid :=
  ⟨⟨by decide, by rw [Int.isCoprime_iff_gcd_eq_one]; decide, by decide, by decide⟩,
    ⟨by decide, by rw [Int.isCoprime_iff_gcd_eq_one]; decide, by decide, by decide⟩⟩

/-- C81 fails for fractions: 1/2 and 7 have the same hash. -/
theorem C81_fraction_not : Frac.hash (BitVec.ofInt 64) ⟨1, 2⟩ = Frac.hash (BitVec.ofInt 64) ⟨7, 1⟩ := by decide

/-- C81 for complex numbers, whatever `std::hash<double>` is: with the same imaginary part they are told apart if the real parts are,
with the same real part they coincide exactly when the hashes of the imaginary parts agree in all bits but the highest. -/
theorem C81_complex_iff {F : Type} (h : F → BitVec 64) (a b c : F) :
    (Cx.hash h ⟨a, c⟩ = Cx.hash h ⟨b, c⟩ ↔ h a = h b) ∧
    (Cx.hash h ⟨c, a⟩ = Cx.hash h ⟨c, b⟩ ↔ ∀ i < 63, (h a).getLsbD i = (h b).getLsbD i) := by
  unfold Cx.hash
  refine ⟨BitVec.xor_left_inj _, (BitVec.xor_right_inj _).trans ⟨fun e i hi => ?_, fun e => ?_⟩⟩
  · have := congrArg (fun v => v.getLsbD (i + 1)) e
    simp only [BitVec.getLsbD_shiftLeft] at this
    simpa only [show i + 1 < 64 by omega, show ¬ i + 1 < 1 by omega, decide_true, decide_false, Bool.not_false, Bool.true_and,
      Nat.add_sub_cancel] using this
  · apply BitVec.eq_of_getLsbD_eq
    intro i hi
    rw [BitVec.getLsbD_shiftLeft, BitVec.getLsbD_shiftLeft]
    by_cases h1 : i < 1
    · simp [h1]
    · rw [e (i - 1) (by omega)]

/-- C81 fails for complex numbers: if some two `double`s have hashes that differ in the highest bit only, the two are the imaginary
parts of different numbers with the same hash. Where `std::hash<double>` is the bits of the number, `5` and `-5` are such. -/
theorem C81_complex_not {F : Type} (h : F → BitVec 64) (a b c : F) (e : h b = h a ^^^ BitVec.twoPow 64 63) : Cx.hash h ⟨c, a⟩ = Cx.hash h ⟨c, b⟩ := by
  rw [(C81_complex_iff h a b c).2]
  intro i hi
  rw [e, BitVec.getLsbD_xor]
  simp [BitVec.getLsbD_twoPow, show ¬ 63 = i by omega]

example : Cx.hash (F := BitVec 64) id ⟨7, 0x4014000000000000⟩ = Cx.hash (F := BitVec 64) id ⟨7, 0xC014000000000000⟩ :=
  C81_complex_not id 0x4014000000000000 0xC014000000000000 7 (by decide)

end Pyincpp
