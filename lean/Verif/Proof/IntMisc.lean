import Verif.Proof.IntRoot

/-! # to_integer, random and `x += x` -/

namespace Pyincpp

/-! ## to_integer -/

theorem toInteger_enc {t : BInt.IntTy} (ht : t.Std) {z : ℤ} (hz : t.fits z) (ha : t.fits |z|) :
    BInt.toInteger t (enc z) = .ok z := by
  unfold BInt.toInteger
  rw [toInteger_loop ht (enc_digs z) (by rw [enc_val]; exact ha)]
  simp only [Res.ok_bind, enc_val, enc_sign]
  rw [mul_comm, Int.sign_mul_abs, arith_fits hz ht]
  simp only [Res.ok_bind, conv_fits hz ht, Res.pure_eq]

/-- The only value of a type whose absolute value does not fit is the minimum of a signed type. -/
theorem fits_abs {t : BInt.IntTy} (ht : t.Std) {z : ℤ} (hz : t.fits z) :
    t.fits |z| ∨ (t.signed = true ∧ z = -2 ^ (t.bits - 1)) := by
  unfold BInt.IntTy.fits at *
  obtain ⟨bits, signed⟩ := t
  unfold BInt.IntTy.Std at ht
  simp only at *
  cases signed <;> simp only [Bool.false_eq_true, if_false, if_true, false_and, or_false, true_and] at hz ⊢ <;>
    rcases abs_choice z with e | e <;> have hn := abs_nonneg z <;> rw [e] at hn ⊢ <;>
    rcases ht with rfl | rfl | rfl | rfl <;> norm_num at hz ⊢ <;> omega

/-- The loop for the minimum of a signed type: the last step leaves the range. -/
theorem toInteger_loop_last {t : BInt.IntTy} (ht : t.Std) {d : ℤ} {v : List ℤ} (hd : Digs (d :: v))
    (hf : t.fits (val v * 10)) :
    forDown (fun i r => do
      let p ← t.arith (r * 10)
      let s ← t.arith (p + (← vget (d :: v) i))
      pure (t.conv s)) (d :: v).length 0 =
      (do let s ← t.arith (val (d :: v)); pure (t.conv s)) := by
  have hdv : Digs v := by
    intro j hj
    have := hd (j + 1) (by simpa using hj)
    simpa using this
  have hnn := val_nonneg hdv
  have hfv : t.fits (val v) := fits_mono ht hf hnn (by omega)
  -- all steps but the last
  have key : ∀ (n : ℕ) (r : ℤ), forDown (fun i r => do
      let p ← t.arith (r * 10)
      let s ← t.arith (p + (← vget (d :: v) i))
      pure (t.conv s)) (n + 1) r = (do
        let r ← forDown (fun i r => do
          let p ← t.arith (r * 10)
          let s ← t.arith (p + (← vget v i))
          pure (t.conv s)) n r
        let p ← t.arith (r * 10)
        let s ← t.arith (p + d)
        pure (t.conv s)) := by
    intro n
    induction n with
    | zero => intro r; simp [forDown, vget]
    | succ n ih =>
      intro r
      rw [forDown]
      conv_rhs => rw [forDown]
      have hb : vget (d :: v) (n + 1) = vget v n := by simp [vget]
      simp only [hb, bind_assoc]
      congr 1; funext p
      congr 1; funext q
      congr 1; funext s
      simp only [Res.pure_eq, Res.ok_bind]
      exact ih _
  rw [List.length_cons, key, toInteger_loop ht hdv hfv]
  simp only [Res.ok_bind, arith_fits hf ht, val_cons]
  rw [show val v * 10 + d = d + 10 * val v by ring]

theorem toInteger_min {t : BInt.IntTy} (ht : t.Std) (hs : t.signed = true) :
    BInt.toInteger t (enc (-2 ^ (t.bits - 1))) =
      if t.bits < 32 then .ok (-2 ^ (t.bits - 1)) else .ub .overflow := by
  have hz0 : (-2 ^ (t.bits - 1) : ℤ) ≠ 0 := by
    have : (0:ℤ) < 2 ^ (t.bits - 1) := by positivity
    omega
  unfold BInt.toInteger
  have hne : (enc (-2 ^ (t.bits - 1))).chunks ≠ [] := by rw [Ne, enc_nil_iff]; exact hz0
  have hdg := enc_digs (-2 ^ (t.bits - 1))
  have hv := enc_val (-2 ^ (t.bits - 1))
  rw [abs_neg, abs_of_pos (by positivity)] at hv
  simp only [enc_sign]
  have hsg : (-2 ^ (t.bits - 1) : ℤ).sign = -1 := Int.sign_eq_neg_one_of_neg (by
    have : (0:ℤ) < 2 ^ (t.bits - 1) := by positivity
    omega)
  rw [hsg]
  generalize (enc (-2 ^ (t.bits - 1))).chunks = w at *
  match w, hne with
  | d :: v, _ =>
    have h0 := hdg 0 (by simp)
    simp only [List.getElem_cons_zero] at h0
    simp only [val_cons] at hv
    have hdv : Digs v := by
      intro j hj
      have := hdg (j + 1) (by simpa using hj)
      simpa using this
    have hnn := val_nonneg hdv
    have hd8 : d ≠ 0 := by
      intro hd0
      rcases ht with h | h | h | h <;> rw [h] at hv <;> norm_num at hv <;> omega
    have hf : t.fits (val v * 10) := by
      unfold BInt.IntTy.fits
      rw [if_pos hs]
      have : (0:ℤ) < 2 ^ (t.bits - 1) := by positivity
      omega
    rw [toInteger_loop_last ht hdg hf]
    simp only [val_cons, hv]
    unfold BInt.IntTy.arith BInt.IntTy.fits BInt.IntTy.conv
    simp only [hs, if_true]
    rcases ht with h | h | h | h <;> simp only [h] <;>
      norm_num [ck, IsInt, INT_MAX, INT_MIN]

/-! ## random -/

theorem random_enc {len : ℕ} {draw : ℕ → ℤ} {most : ℤ} {d : ℤ} (hd : -1 ≤ d)
    (hdraw : ∀ i, 0 ≤ draw i ∧ draw i ≤ 9) (hmost : 1 ≤ most ∧ most ≤ 9) :
    ∃ z : ℤ, 0 ≤ z ∧ BInt.random len draw most d = .ok (enc z) ∧
      (enc z).chunks.length = if d = -1 then len else d.toNat := by
  unfold BInt.random
  rw [if_neg (by omega)]
  simp only
  generalize (if d = -1 then len else d.toNat) = n
  cases n with
  | zero => exact ⟨0, le_refl _, by simp [enc_zero], by simp [enc_zero]⟩
  | succ m =>
    set c := (List.range (m + 1)).map draw with hc
    have hcl : c.length = m + 1 := by simp [hc]
    have hcd : Digs c := by
      rw [digs_iff_mem]; intro x hx
      simp only [hc, List.mem_map] at hx
      obtain ⟨i, _, rfl⟩ := hx
      exact hdraw i
    have hcne : c ≠ [] := by intro h; rw [h] at hcl; simp at hcl
    set w := if m + 1 ≠ 0 ∧ c.getLast? = some 0 then c.set (m + 1 - 1) most else c with hw
    have hwl : w.length = m + 1 := by rw [hw]; split <;> simp [hcl]
    have hwd : Digs w := by
      rw [hw]; split
      · intro j hj
        rw [List.getElem_set]
        split
        · omega
        · exact hcd j (by simpa using hj)
      · exact hcd
    have hwne : w ≠ [] := by intro h; rw [h] at hwl; simp at hwl
    have hlast : ∀ h : w ≠ [], w.getLast h ≠ 0 := by
      intro h
      rw [List.getLast_eq_getElem]
      by_cases hz : c.getLast? = some 0
      · have : w = c.set m most := by rw [hw, if_pos ⟨by omega, hz⟩]; rfl
        simp only [this, List.length_set, hcl, Nat.add_sub_cancel, List.getElem_set_self]
        omega
      · have : w = c := by rw [hw, if_neg (by tauto)]
        intro h0
        apply hz
        rw [List.getLast?_eq_some_getLast hcne]
        congr 1
        rw [List.getLast_eq_getElem]
        simp only [this] at h0
        exact h0
    have e := eq_enc (s := 1) hwd hlast (by rw [if_neg hwne]) (fun _ => Or.inl rfl)
    refine ⟨val w, val_nonneg hwd, ?_, ?_⟩
    · rw [if_neg (by omega), e, one_mul]
    · rw [one_mul] at e
      rw [← e]; exact hwl

theorem random_neg {len : ℕ} {draw : ℕ → ℤ} {most : ℤ} {d : ℤ} (hd : d < -1) :
    BInt.random len draw most d = .throw "Error: `digits` must be a non-negative integer or default = -1." := by
  unfold BInt.random; rw [if_pos hd]

/-! ## `x += x` -/

/-- One step of the loop of `x += x`, in which the right operand is the vector being written. -/
theorem self_step {mem : Mem} {a : List ℤ} {i : ℕ} (h : i + 1 < a.length)
    (h0 : 0 ≤ a[i]) (h1 : a[i] ≤ 11) (g0 : 0 ≤ a[i + 1]) (g1 : a[i + 1] ≤ 9) :
    (do
      let tmp ← iadd (← vget a i) (← vget a i)
      let a ← vset a i (tmp.tmod 10)
      vaddAt mem a (i + 1) (tmp.tdiv 10)) =
      .ok ((a.set i ((2 * a[i]) % 10)).set (i + 1) (a[i + 1] + 2 * a[i] / 10)) := by
  have hi : i < a.length := by omega
  have hnn : 0 ≤ 2 * a[i] := by omega
  have hl : i + 1 < (a.set i ((2 * a[i]) % 10)).length := by simpa using h
  have hg : (a.set i ((2 * a[i]) % 10))[i + 1] = a[i + 1] := by rw [List.getElem_set_ne (by omega)]
  simp only [vget_ok hi, Res.ok_bind, iadd]
  rw [ck_ok (isInt_of_bound (by omega) (by omega)), ← two_mul]
  simp only [Res.ok_bind, vset_ok hi, Int.tmod_eq_emod_of_nonneg hnn, Int.tdiv_eq_ediv_of_nonneg hnn]
  rw [vaddAt_ok hl (by rw [hg]; exact isInt_of_bound (by omega) (by omega)), hg]

/-- The excess of `x += x` over `2x`: the carries, each at its place. -/
def carrySum : List ℤ → ℤ → ℤ
  | [], c => c
  | d :: ds, c => c + 10 * carrySum ds ((d + c) / 5)

theorem carrySum_zero (l : List ℤ) (h : Digs l) (c : ℤ) (h0 : 0 ≤ c) (h2 : c ≤ 2) :
    carrySum (l ++ [0]) c = carrySum l c := by
  induction l generalizing c with
  | nil => simp only [List.nil_append, carrySum]; omega
  | cons d ds ih =>
    have hd := h 0 (by simp)
    rw [List.getElem_cons_zero] at hd
    have hds : Digs ds := fun i hi => h (i + 1) (by simpa using hi)
    rw [List.cons_append, carrySum, carrySum, ih hds _ (by omega) (by omega)]

/-- The state of the loop of `x += x` before step `i`; `X` is the resized vector of digits of `x`. -/
def SelfInv (X : List ℤ) (i : ℕ) (a : List ℤ) : Prop :=
  a.length = X.length ∧
  (∀ (j : ℕ) (h : j < a.length), j < i → 0 ≤ a[j] ∧ a[j] ≤ 9) ∧
  (∀ (j : ℕ) (h : j < a.length) (h' : j < X.length), i < j → a[j] = X[j]) ∧
  ∃ c e : ℤ, 0 ≤ c ∧ c ≤ 2 ∧ 0 ≤ e ∧ (∀ (h : i < a.length) (h' : i < X.length), a[i] = X[i] + c) ∧
    val a = val X + val (X.take i) + e ∧ carrySum X 0 = e + 10 ^ i * carrySum (X.drop i) c ∧
    (e = 0 ∧ c = 0 ↔ ∀ (j : ℕ) (h : j < X.length), j < i → X[j] ≤ 4)

theorem self_inv_step {mem : Mem} {X a : List ℤ} {i : ℕ} (hX : Digs X) (h : i + 1 < X.length) (hI : SelfInv X i a) :
    ∃ a', (do
      let tmp ← iadd (← vget a i) (← vget a i)
      let a ← vset a i (tmp.tmod 10)
      vaddAt mem a (i + 1) (tmp.tdiv 10)) = .ok a' ∧ SelfInv X (i + 1) a' := by
  obtain ⟨hl, hlo, hhi, c, e, c0, c2, e0, hci, hv, hcs, hiff⟩ := hI
  have ha : i + 1 < a.length := by omega
  have hai := hci (by omega) (by omega)
  have hai1 := hhi (i + 1) ha h (by omega)
  have hXi := hX i (by omega)
  have hXi1 := hX (i + 1) h
  refine ⟨_, self_step ha (by omega) (by omega) (by omega) (by omega), by simp [hl], ?_, ?_,
    2 * a[i] / 10, e + c * 10 ^ i, by omega, by omega, by positivity, ?_, ?_, ?_, ?_⟩
  · intro j hj hji
    rw [List.getElem_set_ne (by omega)]
    by_cases hj' : j = i
    · subst hj'; rw [List.getElem_set_self]; omega
    · rw [List.getElem_set_ne (by omega)]
      exact hlo j (by simpa using hj) (by omega)
  · intro j hj hjX hij
    rw [List.getElem_set_ne (by omega), List.getElem_set_ne (by omega)]
    exact hhi j (by omega) hjX (by omega)
  · intro h1 h2
    rw [List.getElem_set_self, hai1]
  · rw [val_set _ _ _ (by simpa using ha), val_set _ _ _ (by omega), List.getElem_set_ne (by omega), hv,
      val_take_succ X i (by omega)]
    have : 2 * a[i] = 10 * (2 * a[i] / 10) + 2 * a[i] % 10 := (Int.mul_ediv_add_emod _ _).symm
    rw [pow_succ]
    linear_combination (-(10:ℤ) ^ i) * this + (10:ℤ) ^ i * hai
  · rw [hcs, List.drop_eq_getElem_cons (by omega : i < X.length), carrySum,
      show 2 * a[i] / 10 = (X[i] + c) / 5 by omega, pow_succ]
    ring
  · have hp : (0:ℤ) < 10 ^ i := by positivity
    constructor
    · rintro ⟨he, hcc⟩ j hj hji
      have hce : 0 ≤ c * 10 ^ i := by positivity
      have he0 : e = 0 := by omega
      have hc0 : c = 0 := by
        have : c * 10 ^ i = 0 := by omega
        rcases mul_eq_zero.mp this with h | h
        · exact h
        · omega
      by_cases hj' : j = i
      · subst hj'; omega
      · exact hiff.mp ⟨he0, hc0⟩ j hj (by omega)
    · intro hall
      obtain ⟨he0, hc0⟩ := hiff.mpr (fun j hj hji => hall j hj (by omega))
      have := hall i (by omega) (by omega)
      subst hc0
      refine ⟨by simp [he0], by omega⟩

/-- All steps of the loop of `x += x` but the last. -/
theorem self_loop {mem : Mem} {X : List ℤ} (hX : Digs X) {m : ℕ} (hl : X.length = m + 1) :
    ∃ a, forUp (fun i a => do
      let tmp ← iadd (← vget a i) (← vget a i)
      let a ← vset a i (tmp.tmod 10)
      vaddAt mem a (i + 1) (tmp.tdiv 10)) 0 m X = .ok a ∧ SelfInv X m a := by
  have h0 : SelfInv X 0 X := by
    refine ⟨rfl, by intro j _ h; omega, by intros; rfl, 0, 0, by norm_num, by norm_num, by norm_num, by simp, by simp, by simp, ?_⟩
    constructor
    · intro _ j _ hj; omega
    · intro _; simp
  have := forUp_inv (fun i a => SelfInv X i a) m 0 X h0
    (fun j s _ hj hs => self_inv_step (mem := mem) hX (by omega) hs)
  simpa using this

theorem addSame_self {x : ℤ} (hx : x ≠ 0) :
    BInt.addSame .strict true (enc x) (enc x) = .ub .outOfBounds ∧
    ∃ e : ℤ, 0 ≤ e ∧ (e = 0 ↔ ∀ d ∈ (enc x).chunks, d ≤ 4) ∧ e = carrySum (enc x).chunks 0 ∧
      BInt.addSame .lenient true (enc x) (enc x) = .ok (enc (x.sign * (2 * |x| + e))) := by
  set X := vresize (enc x).chunks (max (enc x).chunks.length (enc x).chunks.length + 1) with hXd
  set m := (enc x).chunks.length with hm
  have hXl : X.length = m + 1 := by rw [hXd, vresize_length]; omega
  have hXD : Digs X := vresize_digs (enc_digs x) _
  have hXv : val X = |x| := by rw [hXd, vresize_val (by omega), enc_val]
  have hXe : X = (enc x).chunks ++ [0] := by
    rw [hXd]; unfold vresize
    rw [List.take_of_length_le (by omega), show max m m + 1 - (enc x).chunks.length = 1 by omega]; rfl
  have hlast : X[m]'(by omega) = 0 := by
    simp only [hXe]
    rw [List.getElem_append_right (by omega)]
    simp
  have hloop : ∀ mem, ∃ a, SelfInv X m a ∧ BInt.addSame mem true (enc x) (enc x) = (do
      let a ← (do
        let tmp ← iadd (← vget a m) (← vget a m)
        let a ← vset a m (tmp.tmod 10)
        vaddAt mem a (m + 1) (tmp.tdiv 10))
      pure (BInt.trim { enc x with chunks := a })) := by
    intro mem
    obtain ⟨a, e, hI⟩ := self_loop (mem := mem) hXD hXl
    refine ⟨a, hI, ?_⟩
    unfold BInt.addSame
    simp only [if_true]
    rw [← hXd, hXl, forRange, Nat.sub_zero, forUp_add, e]
    simp only [Res.ok_bind, Nat.zero_add, forUp, bind_pure_comp]
    have hal : a.length = m + 1 := by rw [hI.1, hXl]
    have ham : m < a.length := by omega
    obtain ⟨hl, hlo, hhi, c, e, c0, c2, e0, hci, hv, hcs, hiff⟩ := hI
    have hc := hci ham (by omega)
    rw [hlast, zero_add] at hc
    simp only [vget_ok ham, Res.ok_bind, iadd]
    rw [ck_ok (isInt_of_bound (by omega) (by omega))]
    simp only [Res.ok_bind, vset_ok ham]
    cases mem with
    | strict =>
      rw [vaddAt_strict (by simp [hal])]; rfl
    | lenient =>
      have : (a[m] + a[m]).tdiv 10 = 0 := by
        rw [Int.tdiv_eq_ediv_of_nonneg (by omega)]; omega
      rw [this, vaddAt_lenient (by simp [hal])]
      simp [hal, forUpWhile]
  constructor
  · obtain ⟨a, hI, e⟩ := hloop .strict
    rw [e]
    obtain ⟨hl, hlo, hhi, c, e, c0, c2, e0, hci, hv, hcs, hiff⟩ := hI
    have ham : m < a.length := by omega
    have hc := hci ham (by omega)
    rw [hlast, zero_add] at hc
    simp only [vget_ok ham, Res.ok_bind, iadd]
    rw [ck_ok (isInt_of_bound (by omega) (by omega))]
    simp only [Res.ok_bind, vset_ok ham]
    rw [vaddAt_strict (by simp [hl, hXl])]
    rfl
  · obtain ⟨a, hI, e⟩ := hloop .lenient
    obtain ⟨hl, hlo, hhi, c, ex, c0, c2, e0, hci, hv, hcs, hiff⟩ := hI
    have ham : m < a.length := by omega
    have hc := hci ham (by omega)
    rw [hlast, zero_add] at hc
    have htk : val (X.take m) = |x| := by
      rw [hXe, List.take_append_of_le_length (by omega), List.take_of_length_le (by omega), enc_val]
    have hp : (0:ℤ) < 10 ^ m := by positivity
    refine ⟨ex + c * 10 ^ m, by positivity, ?_, ?_, ?_⟩
    · rw [show (ex + c * 10 ^ m = 0 ↔ ex = 0 ∧ c = 0) from ?_]
      · rw [hiff]
        constructor
        · intro h d hd
          obtain ⟨j, hj, rfl⟩ := List.mem_iff_getElem.mp hd
          have := h j (by omega) (by omega)
          simp only [hXe] at this
          rwa [List.getElem_append_left hj] at this
        · intro h j hj hjm
          simp only [hXe]
          rw [List.getElem_append_left (by omega)]
          exact h _ (List.getElem_mem _)
      · constructor
        · intro h
          have h1 : 0 ≤ c * 10 ^ m := by positivity
          have h2 : c * 10 ^ m = 0 := by omega
          refine ⟨by omega, ?_⟩
          rcases mul_eq_zero.mp h2 with h | h
          · exact h
          · omega
        · rintro ⟨h, h'⟩; simp [h, h']
    · rw [← carrySum_zero _ (enc_digs x) 0 (by norm_num) (by norm_num), ← hXe, hcs, hXe, List.drop_left' hm.symm]
      simp only [carrySum]
      rw [show (0 + c) / 5 = 0 by omega]
      ring
    · rw [e]
      simp only [vget_ok ham, Res.ok_bind, iadd]
      rw [ck_ok (isInt_of_bound (by omega) (by omega))]
      simp only [Res.ok_bind, vset_ok ham]
      have h0 : (a[m] + a[m]).tdiv 10 = 0 := by
        rw [Int.tdiv_eq_ediv_of_nonneg (by omega)]; omega
      have h1 : (a[m] + a[m]).tmod 10 = 2 * c := by
        rw [Int.tmod_eq_emod_of_nonneg (by omega)]; omega
      rw [h0, h1, vaddAt_lenient (by simp [hl, hXl])]
      simp only [Res.ok_bind, enc_sign, Res.pure_eq]
      have hd : Digs (a.set m (2 * c)) := by
        intro j hj
        by_cases hjm : j = m
        · subst hjm; rw [List.getElem_set_self]; omega
        · rw [List.getElem_set_ne (by omega)]
          exact hlo j (by simpa using hj) (by simp at hj; omega)
      rw [trim_enc hd (sign_cases hx), val_set _ _ _ ham, hv, hXv, htk, hc]
      congr 3
      ring

end Pyincpp
