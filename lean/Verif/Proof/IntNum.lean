import Verif.Proof.IntDiv
import Mathlib.Data.Nat.Prime.Basic
import Mathlib.Data.Nat.Prime.Infinite
import Mathlib.Data.Nat.Factorial.Basic
import Mathlib.Algebra.Order.Ring.Int
import Mathlib.RingTheory.Int.Basic
import Mathlib.Tactic.IntervalCases
import Mathlib.Data.Nat.Sqrt

/-! # Number-theoretic functions of `Int` -/

namespace Pyincpp

theorem isPositive_enc (x : ℤ) : BInt.isPositive (enc x) = decide (0 < x) := by
  rw [Bool.eq_iff_iff]; simp [BInt.isPositive, enc_sign]

theorem isNegative_enc (x : ℤ) : BInt.isNegative (enc x) = decide (x < 0) := by
  rw [Bool.eq_iff_iff]; simp [BInt.isNegative, enc_sign]

theorem enc_first {x : ℤ} (h : x ≠ 0) : ∃ d ds, (enc x).chunks = d :: ds ∧ |x| = d + 10 * val ds := by
  have hne : (enc x).chunks ≠ [] := by rw [Ne, enc_nil_iff]; exact h
  match hc : (enc x).chunks, hne with
  | d :: ds, _ => exact ⟨d, ds, rfl, by rw [← enc_val x, hc]; rfl⟩

theorem isEven_enc (x : ℤ) : BInt.isEven (enc x) = .ok (decide (x % 2 = 0)) := by
  unfold BInt.isEven
  rw [isZero_enc]
  by_cases hx : x = 0
  · subst hx; simp
  · simp only [hx, decide_false, Bool.false_eq_true, if_false]
    obtain ⟨d, ds, e, hv⟩ := enc_first hx
    rw [e, vget_ok (by simp)]
    simp only [Res.ok_bind, Res.pure_eq, List.getElem_cons_zero]
    congr 1
    rw [Bool.eq_iff_iff]
    simp
    rcases abs_choice x with ha | ha <;> rw [ha] at hv <;> omega

theorem isOdd_enc (x : ℤ) : BInt.isOdd (enc x) = .ok (decide (x % 2 = 1)) := by
  unfold BInt.isOdd
  rw [isZero_enc]
  by_cases hx : x = 0
  · subst hx; simp
  · simp only [hx, decide_false, Bool.false_eq_true, if_false]
    obtain ⟨d, ds, e, hv⟩ := enc_first hx
    rw [e, vget_ok (by simp)]
    simp only [Res.ok_bind, Res.pure_eq, List.getElem_cons_zero]
    congr 1
    rw [Bool.eq_iff_iff]
    simp
    rcases abs_choice x with ha | ha <;> rw [ha] at hv <;> omega

theorem abs_enc (x : ℤ) : BInt.abs (enc x) = enc |x| := by
  unfold BInt.abs
  split
  · rename_i h
    rw [enc_sign] at h
    have := Int.neg_of_sign_eq_neg_one h
    rw [neg_enc, abs_of_neg this]
  · rename_i h
    rw [enc_sign] at h
    have : 0 ≤ x := by
      by_contra hc
      exact h (Int.sign_eq_neg_one_of_neg (by omega))
    rw [abs_of_nonneg this]

/-! ## primes -/

theorem isPrimeLoop_enc {k : ℕ} (hk : 11 ≤ k) {z : ℤ} (hz : 2 ≤ z) :
    ∀ (n : ℕ) (i : ℤ), 2 ≤ i → (Nat.sqrt z.toNat : ℤ) + 2 ≤ i + n → 0 < n → (∀ d : ℤ, 2 ≤ d → d < i → ¬ d ∣ z) →
    BInt.isPrimeLoop .lenient k (enc z) n (enc i) = .ok (decide (Nat.Prime z.toNat))
  | 0, _, _, _, h, _ => absurd h (by omega)
  | n + 1, i, hi, hn, _, hd => by
    unfold BInt.isPrimeLoop
    simp only [mul_enc, Res.ok_bind, le_enc]
    by_cases hle : i * i ≤ z
    · simp only [hle, decide_true, if_true]
      rw [mod_enc hk z (by omega : i ≠ 0), codeMod_of_pos (by omega)]
      simp only [Res.ok_bind, isZero_enc]
      by_cases hdvd : z % i = 0
      · simp only [hdvd, decide_true, if_true, Res.pure_eq]
        have hnp : ¬ Nat.Prime z.toNat := by
          intro hp
          have h1 : i.toNat ∣ z.toNat := by
            have : i ∣ z := Int.dvd_of_emod_eq_zero hdvd
            rw [← Int.natCast_dvd_natCast]
            rwa [Int.toNat_of_nonneg (by omega), Int.toNat_of_nonneg (by omega)]
          rcases (Nat.dvd_prime hp).mp h1 with h | h
          · omega
          · have : i = z := by omega
            nlinarith
        simp [hnp]
      · simp only [hdvd, decide_false, Bool.false_eq_true, if_false]
        rw [absInc_enc (by omega), Int.sign_eq_one_of_pos (by omega)]
        simp only [Res.ok_bind]
        refine isPrimeLoop_enc hk hz n (i + 1) (by omega) ?_ ?_ ?_
        · push_cast at hn; omega
        · have : i.toNat ≤ Nat.sqrt z.toNat := by
            rw [Nat.le_sqrt]
            zify
            rw [Int.toNat_of_nonneg (by omega), Int.toNat_of_nonneg (by omega)]
            exact hle
          push_cast at hn; omega
        · intro d h2 hlt hdv
          by_cases hdi : d = i
          · subst hdi; exact hdvd (Int.emod_eq_zero_of_dvd hdv)
          · exact hd d h2 (by omega) hdv
    · simp only [hle, decide_false, Bool.false_eq_true, if_false, Res.pure_eq]
      have hp : Nat.Prime z.toNat := by
        rw [Nat.prime_def_le_sqrt]
        refine ⟨by omega, fun m h2 hm hdv => ?_⟩
        have hmz : (m : ℤ) ∣ z := by
          have := Int.natCast_dvd_natCast.mpr hdv
          rwa [Int.toNat_of_nonneg (by omega)] at this
        have hmm : m * m ≤ z.toNat := Nat.le_sqrt.mp hm
        have hmm' : (m : ℤ) * m ≤ z := by
          have : ((m * m : ℕ) : ℤ) ≤ (z.toNat : ℤ) := by exact_mod_cast hmm
          rw [Int.toNat_of_nonneg (by omega)] at this
          push_cast at this; exact this
        refine hd m (by omega) ?_ hmz
        nlinarith
      simp [hp]

theorem isPrime_sharp {k : ℕ} {z : ℤ} (hk : 11 ≤ k) (hr : Nat.sqrt z.toNat ≤ k) :
    BInt.isPrime .lenient k (enc z) = .ok (decide (Nat.Prime z.toNat)) := by
  unfold BInt.isPrime
  rw [ofInt_small (by norm_num) (by norm_num)]
  simp only [Res.ok_bind, le_enc]
  by_cases h1 : z ≤ 1
  · simp only [h1, decide_true, if_true, Res.pure_eq]
    have : ¬ Nat.Prime z.toNat := by
      intro h; have := h.two_le; omega
    simp [this]
  · simp only [h1, decide_false, Bool.false_eq_true, if_false]
    rw [ofInt_small (by norm_num) (by norm_num)]
    simp only [Res.ok_bind]
    exact isPrimeLoop_enc (by omega) (by omega) k 2 le_rfl (by omega) (by omega) (fun d h2 hlt => by omega)

theorem isPrime_enc {k : ℕ} {z : ℤ} (hk : z.toNat + 11 ≤ k) :
    BInt.isPrime .lenient k (enc z) = .ok (decide (Nat.Prime z.toNat)) :=
  isPrime_sharp (by omega) (by have := Nat.sqrt_le_self z.toNat; omega)

theorem nextPrimeLoop_enc {k : ℕ} {P : ℕ} (hP : P.Prime) (hP3 : 3 ≤ P) (hk : 11 ≤ k) (hr : Nat.sqrt P ≤ k) :
    ∀ (n : ℕ) (p : ℤ), 1 ≤ p → p % 2 = 1 → p < P → P ≤ p + 2 * n → (∀ q : ℕ, p < q → q < P → q ≠ 2 → ¬ q.Prime) →
    BInt.nextPrimeLoop .lenient k n (enc p) = .ok (enc P)
  | 0, p, _, _, h1, h2, _ => by omega
  | n + 1, p, hp1, hodd, hlt, hn, hno => by
    unfold BInt.nextPrimeLoop
    rw [absInc_enc (by omega), Int.sign_eq_one_of_pos (by omega)]
    simp only [Res.ok_bind]
    rw [absInc_enc (by omega), Int.sign_eq_one_of_pos (by omega)]
    simp only [Res.ok_bind]
    have hPodd : P % 2 = 1 := by
      rcases Nat.Prime.eq_two_or_odd hP with h | h
      · omega
      · exact h
    rw [isPrime_sharp hk (le_trans (Nat.sqrt_le_sqrt (by omega)) hr)]
    simp only [Res.ok_bind]
    by_cases heq : p + 1 + 1 = P
    · rw [heq]
      simp [hP]
    · have hnp : ¬ Nat.Prime (p + 1 + 1).toNat := hno _ (by omega) (by omega) (by omega)
      simp only [hnp, decide_false, Bool.false_eq_true, if_false]
      exact nextPrimeLoop_enc hP hP3 hk hr n _ (by omega) (by omega) (by omega) (by push_cast at hn; omega)
        (fun q h1 h2 h3 => hno q (by omega) h2 h3)

theorem nextPrime_sharp {k : ℕ} {z : ℤ} {P : ℕ} (hP : P.Prime) (hlt : z < P)
    (hmin : ∀ q : ℕ, z < q → q < P → ¬ q.Prime) (hk : 11 ≤ k) (hr : Nat.sqrt P ≤ k) (hn : 2 ≤ z → P < z + 2 * k) :
    BInt.nextPrime .lenient k (enc z) = .ok (enc P) := by
  unfold BInt.nextPrime
  rw [ofInt_small (by norm_num) (by norm_num)]
  simp only [Res.ok_bind, lt_enc]
  by_cases h2 : z < 2
  · simp only [h2, decide_true, if_true]
    have : P = 2 := by
      by_contra hne
      have := hP.two_le
      exact hmin 2 (by exact_mod_cast h2) (by omega) Nat.prime_two
    rw [this]
    rfl
  · simp only [h2, decide_false, Bool.false_eq_true, if_false, isEven_enc, Res.ok_bind]
    have hP3 : 3 ≤ P := by omega
    have hPodd : P % 2 = 1 := by
      rcases Nat.Prime.eq_two_or_odd hP with h | h
      · omega
      · exact h
    by_cases he : z % 2 = 0
    · simp only [he, decide_true, if_true]
      rw [absDec_enc (by omega), Int.sign_eq_one_of_pos (by omega)]
      simp only [Res.ok_bind]
      refine nextPrimeLoop_enc hP hP3 hk hr k _ (by omega) (by omega) (by omega) (by omega) ?_
      intro q h1 h2 h3 hq
      have : q % 2 = 1 := by
        rcases Nat.Prime.eq_two_or_odd hq with h | h
        · omega
        · exact h
      exact hmin q (by omega) h2 hq
    · simp only [he, decide_false, Bool.false_eq_true, if_false, Res.pure_eq, Res.ok_bind]
      exact nextPrimeLoop_enc hP hP3 hk hr k _ (by omega) (by omega) (by omega) (by omega)
        (fun q h1 h2 _ => hmin q h1 h2)

theorem nextPrime_enc {k : ℕ} {z : ℤ} {P : ℕ} (hP : P.Prime) (hlt : z < P)
    (hmin : ∀ q : ℕ, z < q → q < P → ¬ q.Prime) (hk : P + 11 ≤ k) :
    BInt.nextPrime .lenient k (enc z) = .ok (enc P) :=
  nextPrime_sharp hP hlt hmin (by omega) (by have := Nat.sqrt_le_self P; omega) (by omega)

/-! ## factorial -/

theorem factorial_enc {k : ℕ} {z : ℕ} (hk : z < k) :
    BInt.factorial k (enc z) = .ok (enc (z.factorial)) := by
  unfold BInt.factorial
  rw [if_neg (by rw [enc_sign, Int.sign_eq_neg_one_iff_neg]; omega), ofInt_small (by norm_num) (by norm_num)]
  simp only [Res.ok_bind]
  obtain ⟨s, e, ⟨n, r, hnr, rfl⟩, hc⟩ := whileF_inv
    (cond := fun (s : BInt × BInt) => Res.ok (BInt.isPositive s.1))
    (body := fun s => do
        let r ← BInt.mul s.2 s.1
        pure (← BInt.absDec s.1, r))
    (fun s => ∃ (n : ℕ) (r : ℤ), r * n.factorial = z.factorial ∧ s = (enc n, enc r))
    (fun s => (val s.1.chunks).toNat)
    (by
      rintro s ⟨n, r, hnr, rfl⟩
      simp only [isPositive_enc]
      by_cases hn : n = 0
      · left; subst hn; simp
      · right
        obtain ⟨m, rfl⟩ : ∃ m, n = m + 1 := ⟨n - 1, by omega⟩
        refine ⟨by simp, (enc (m : ℤ), enc (r * ((m + 1 : ℕ) : ℤ))), ?_, ⟨m, _, ?_, rfl⟩, ?_⟩
        · rw [mul_enc, absDec_enc (by omega), Int.sign_eq_one_of_pos (by omega)]
          simp
        · rw [← hnr, Nat.factorial_succ]; push_cast; ring
        · simp only [enc_val]
          rw [abs_of_nonneg (by omega), abs_of_nonneg (by omega)]; omega)
    k (enc z, enc 1) ⟨z, 1, by ring, rfl⟩
    (by simp only [enc_val]; rw [abs_of_nonneg (by omega)]; omega)
  rw [e]
  simp only [isPositive_enc] at hc
  have : n = 0 := by simpa using hc
  subst this
  simp at hnr
  simp [hnr]

theorem factorial_neg (k : ℕ) {z : ℤ} (h : z < 0) :
    BInt.factorial k (enc z) = .throw "Error: Negative integer have no factorial." := by
  unfold BInt.factorial
  rw [if_pos (by rw [enc_sign, Int.sign_eq_neg_one_iff_neg]; exact h)]

/-! ## gcd, lcm -/

/-- The number of rounds of the Euclidean loop on `(x, y)`. -/
def euclid (x y : ℕ) : ℕ := if h : y = 0 then 0 else euclid y (x % y) + 1
termination_by y
decreasing_by exact Nat.mod_lt _ (Nat.pos_of_ne_zero h)

theorem euclid_zero (x : ℕ) : euclid x 0 = 0 := by rw [euclid]; simp

theorem euclid_pos (x : ℕ) {y : ℕ} (h : y ≠ 0) : euclid x y = euclid y (x % y) + 1 := by rw [euclid]; simp [h]

theorem euclid_le (x y : ℕ) : euclid x y ≤ y := by
  induction y using Nat.strong_induction_on generalizing x with
  | _ y ih =>
    by_cases h : y = 0
    · subst h; rw [euclid_zero]
    · rw [euclid_pos x h]
      have h1 := Nat.mod_lt x (Nat.pos_of_ne_zero h)
      have := ih _ h1 y
      omega

theorem gcd_sharp {k : ℕ} {a b : ℤ} (hk : 11 ≤ k) (hr : euclid a.natAbs b.natAbs < k) :
    BInt.gcd .lenient k (enc a) (enc b) = .ok (enc (Int.gcd a b)) := by
  unfold BInt.gcd
  rw [ofInt_small (by norm_num) (by norm_num)]
  simp only [Res.ok_bind, abs_enc]
  obtain ⟨s, e, ⟨x, y, hg, rfl⟩, hc⟩ := whileF_inv
    (cond := fun (s : BInt × BInt) => Res.ok (!(BInt.eq s.2 (enc 0))))
    (body := fun s => do
      let r ← BInt.mod .lenient k s.1 s.2
      pure (s.2, r))
    (fun s => ∃ (x y : ℕ), Nat.gcd x y = Int.gcd a b ∧ s = (enc x, enc y))
    (fun s => euclid (val s.1.chunks).toNat (val s.2.chunks).toNat)
    (by
      rintro s ⟨x, y, hg, rfl⟩
      simp only [eq_enc_iff]
      by_cases hy : y = 0
      · left; subst hy; simp
      · right
        refine ⟨by simp [hy], (enc (y : ℤ), enc ((x % y : ℕ) : ℤ)), ?_, ⟨y, x % y, ?_, rfl⟩, ?_⟩
        · rw [mod_enc (by omega) _ (by exact_mod_cast hy), codeMod_of_pos (by omega)]
          simp
        · rw [← hg, Nat.gcd_comm y, ← Nat.gcd_rec, Nat.gcd_comm]
        · simp only [enc_val, Nat.abs_cast, Int.toNat_natCast]
          rw [euclid_pos x hy]
          omega)
    k (enc |a|, enc |b|) ⟨a.natAbs, b.natAbs, rfl, by simp⟩
    (by simp only [enc_val, Int.abs_eq_natAbs, Int.toNat_natCast]; exact hr)
  rw [e]
  simp only [eq_enc_iff] at hc
  have : y = 0 := by simpa using hc
  subst this
  simp at hg
  simp [hg]

theorem gcd_enc {k : ℕ} {a b : ℤ} (hk : b.natAbs + 11 ≤ k) :
    BInt.gcd .lenient k (enc a) (enc b) = .ok (enc (Int.gcd a b)) :=
  gcd_sharp (by omega) (by have := euclid_le a.natAbs b.natAbs; omega)

theorem lcm_sharp {k : ℕ} {a b : ℤ} (hk : 11 ≤ k) (hr : euclid a.natAbs b.natAbs < k) :
    BInt.lcm .lenient k (enc a) (enc b) = .ok (enc (Int.lcm a b)) := by
  unfold BInt.lcm
  simp only [isZero_enc, decide_eq_true_eq]
  by_cases h0 : a = 0 ∨ b = 0
  · rw [if_pos h0, ofInt_small (by norm_num) (by norm_num)]
    congr 2
    rcases h0 with rfl | rfl <;> simp
  · rw [if_neg h0, mul_enc]
    simp only [Res.ok_bind, abs_enc]
    rw [gcd_sharp hk hr]
    simp only [Res.ok_bind]
    have hg : Int.gcd a b ≠ 0 := by
      intro h
      rw [Int.gcd_eq_zero_iff] at h
      tauto
    rw [div_enc (by omega) _ (by exact_mod_cast hg)]
    congr 2
    rw [Int.tdiv_eq_ediv_of_nonneg (abs_nonneg _)]
    rw [Int.lcm, Nat.lcm, ← Int.natCast_natAbs, Int.natAbs_mul]
    norm_cast

theorem lcm_enc {k : ℕ} {a b : ℤ} (hk : b.natAbs + 11 ≤ k) :
    BInt.lcm .lenient k (enc a) (enc b) = .ok (enc (Int.lcm a b)) :=
  lcm_sharp (by omega) (by have := euclid_le a.natAbs b.natAbs; omega)

/-! ## log -/

theorem log_sharp {k : ℕ} {n b : ℕ} (hn : 0 < n) (hb : 2 ≤ b) (hk : 11 ≤ k) (hr : Nat.log b n < k)
    (hsize : (enc (n : ℤ)).chunks.length ≤ 2147483647) :
    BInt.log .lenient k (enc n) (enc b) = .ok (enc (Nat.log b n)) := by
  unfold BInt.log
  have hs : ¬ (enc (n : ℤ)).sign ≤ 0 := by
    rw [enc_sign, Int.sign_eq_one_of_pos (by exact_mod_cast hn)]; norm_num
  simp only [if_neg hs]
  rw [ofInt_small (by norm_num) (by norm_num), ofInt_small (by norm_num) (by norm_num), ofInt_small (by norm_num) (by norm_num)]
  have hb2 : ¬ ((b:ℤ) < 2) := by omega
  simp only [Res.ok_bind, lt_enc, hb2, decide_false, Bool.false_eq_true, if_false, eq_enc_iff]
  by_cases h10 : (b : ℤ) = 10
  · simp only [h10, decide_true, if_true, digits_enc, Res.ok_bind]
    have hpos := enc_length_pos (x := (n : ℤ)) (by omega)
    rw [ofInt_enc (by rw [isInt_bounds]; omega) (by unfold INT_MIN; omega)]
    congr 2
    have hb10 : b = 10 := by exact_mod_cast h10
    subst hb10
    have : (enc (n : ℤ)).chunks.length = Nat.log 10 n + 1 := by
      simp only [enc, List.length_map, Int.natAbs_natCast]
      rw [Nat.length_digits 10 n (by norm_num) (by omega)]
    omega
  · simp only [h10, decide_false, Bool.false_eq_true, if_false]
    rw [div_enc (by omega) _ (by omega)]
    simp only [Res.ok_bind]
    obtain ⟨s, e, ⟨m, r, hr, rfl⟩, hc⟩ := whileF_inv
      (cond := fun (s : BInt × BInt) => Res.ok (!(BInt.isZero s.1)))
      (body := fun s => do
        let r ← BInt.inc s.2
        pure (← BInt.divAssign .lenient k s.1 (enc b), r))
      (fun s => ∃ (m r : ℕ), (r + (if m = 0 then 0 else Nat.log b m + 1) = Nat.log b n) ∧ s = (enc m, enc r))
      (fun s => if (val s.1.chunks).toNat = 0 then 0 else Nat.log b (val s.1.chunks).toNat + 1)
      (by
        rintro s ⟨m, r, hr, rfl⟩
        simp only [isZero_enc]
        by_cases hm : m = 0
        · left; subst hm; simp
        · right
          refine ⟨by simp [hm], (enc ((m / b : ℕ) : ℤ), enc ((r + 1 : ℕ) : ℤ)), ?_, ⟨m / b, r + 1, ?_, rfl⟩, ?_⟩
          · have := div_enc (k := k) (by omega) (m : ℤ) (y := (b : ℤ)) (by omega)
            unfold BInt.div at this
            rw [inc_enc, this]
            simp [Int.tdiv_eq_ediv_of_nonneg]
          · rw [if_neg hm] at hr
            rw [← hr]
            by_cases hmb : m < b
            · rw [Nat.div_eq_of_lt hmb, if_pos rfl, Nat.log_of_lt hmb]
            · have h1 : m / b ≠ 0 := by
                have := Nat.div_pos (by omega : b ≤ m) (by omega); omega
              rw [if_neg h1, Nat.log_of_one_lt_of_le (b := b) (n := m) (by omega) (by omega)]
              omega
          · simp only [enc_val, Nat.abs_cast, Int.toNat_natCast]
            rw [if_neg hm]
            by_cases hmb : m < b
            · rw [Nat.div_eq_of_lt hmb, if_pos rfl]; omega
            · have h1 : m / b ≠ 0 := by
                have := Nat.div_pos (by omega : b ≤ m) (by omega); omega
              rw [if_neg h1, Nat.log_of_one_lt_of_le (b := b) (n := m) (by omega) (by omega)]
              omega)
      k (enc ((n : ℤ).tdiv b), enc 0) ⟨n / b, 0, by
          by_cases hnb : n < b
          · rw [Nat.div_eq_of_lt hnb, if_pos rfl, Nat.log_of_lt hnb]
          · have h1 : n / b ≠ 0 := by
              have := Nat.div_pos (by omega : b ≤ n) (by omega); omega
            rw [if_neg h1, Nat.log_of_one_lt_of_le (b := b) (n := n) (by omega) (by omega)]
            omega, by simp [Int.tdiv_eq_ediv_of_nonneg]⟩
      (by
        simp only [enc_val]
        rw [Int.tdiv_eq_ediv_of_nonneg (by omega), show ((n:ℤ) / (b:ℤ)) = ((n / b : ℕ) : ℤ) by norm_cast, Nat.abs_cast,
          Int.toNat_natCast]
        by_cases hnb : n < b
        · rw [Nat.div_eq_of_lt hnb, if_pos rfl]; omega
        · have h1 : n / b ≠ 0 := by
            have := Nat.div_pos (by omega : b ≤ n) (by omega); omega
          rw [if_neg h1]
          rw [Nat.log_of_one_lt_of_le (b := b) (n := n) (by omega) (by omega)] at hr
          exact hr)
    rw [e]
    simp only [isZero_enc] at hc
    have : m = 0 := by simpa using hc
    subst this
    simp at hr
    simp [hr]

theorem log_enc {k : ℕ} {n b : ℕ} (hn : 0 < n) (hb : 2 ≤ b) (hk : n + 11 ≤ k)
    (hsize : (enc (n : ℤ)).chunks.length ≤ 2147483647) :
    BInt.log .lenient k (enc n) (enc b) = .ok (enc (Nat.log b n)) :=
  log_sharp hn hb (by omega) (by have := Nat.log_le_self b n; omega) hsize

theorem log_domain {mem : Mem} (k : ℕ) {n b : ℤ} (h : n ≤ 0 ∨ b < 2) :
    BInt.log mem k (enc n) (enc b) = .throw "Error: Math domain error." := by
  unfold BInt.log
  by_cases hn : n ≤ 0
  · have hs : (enc n).sign ≤ 0 := by
      rw [enc_sign, Int.sign_nonpos_iff]; exact hn
    simp [if_pos hs]
  · have hs : ¬ (enc n).sign ≤ 0 := by
      rw [enc_sign, Int.sign_nonpos_iff]; exact hn
    have hb : b < 2 := by tauto
    rw [if_neg hs, ofInt_small (by norm_num) (by norm_num)]
    simp only [Res.ok_bind, lt_enc, hb, decide_true, if_true]

end Pyincpp
