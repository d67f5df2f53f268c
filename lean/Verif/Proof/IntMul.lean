import Verif.Proof.IntAddSub

/-! # `*=`, `abs_inc`, `abs_dec`, construction from `int` -/

namespace Pyincpp

/-- Digits are in `0..9`, except that the one at position `i` may be up to 18. -/
def Wide (i : ℕ) (v : List ℤ) : Prop :=
  ∀ (j : ℕ) (h : j < v.length), 0 ≤ v[j] ∧ (v[j] ≤ 9 ∨ (j = i ∧ v[j] ≤ 18))

theorem mul_step {c : List ℤ} {p : ℕ} {q : ℤ} (hc : Wide p c) (h : p + 1 < c.length) (hq : 0 ≤ q ∧ q ≤ 81) :
    ∃ c', (do
      let c ← vset c p (← iadd (← vget c p) q)
      let cij ← vget c p
      let c ← vset c (p + 1) (← iadd (← vget c (p + 1)) (cij.tdiv 10))
      vset c p (cij.tmod 10)) = .ok c' ∧ c'.length = c.length ∧ Wide (p + 1) c' ∧ val c' = val c + q * 10 ^ p := by
  have hp : p < c.length := by omega
  obtain ⟨h0, h9⟩ := hc p hp
  have h18 : c[p] ≤ 18 := by rcases h9 with h | h <;> omega
  obtain ⟨g0, g9⟩ := hc (p + 1) h
  have g9' : c[p + 1] ≤ 9 := by rcases g9 with h | h <;> omega
  have hnn : 0 ≤ c[p] + q := by omega
  have e1 : (c[p] + q).tmod 10 = (c[p] + q) % 10 := Int.tmod_eq_emod_of_nonneg hnn
  have e2 : (c[p] + q).tdiv 10 = (c[p] + q) / 10 := Int.tdiv_eq_ediv_of_nonneg hnn
  refine ⟨((c.set p (c[p] + q)).set (p + 1) (c[p + 1] + (c[p] + q) / 10)).set p ((c[p] + q) % 10), ?_, by simp, ?_, ?_⟩
  · simp only [vget_ok hp, Res.ok_bind, iadd]
    rw [ck_ok (isInt_of_bound (by omega) (by omega))]
    simp only [Res.ok_bind, vset_ok hp]
    rw [vget_ok (by simpa using hp), List.getElem_set_self]
    simp only [Res.ok_bind]
    rw [vget_ok (by simpa using h), List.getElem_set_ne (by omega)]
    simp only [Res.ok_bind, e1, e2]
    rw [ck_ok (isInt_of_bound (by omega) (by omega))]
    simp only [Res.ok_bind]
    rw [vset_ok (by simpa using h)]
    simp only [Res.ok_bind]
    rw [vset_ok (by simpa using hp)]
  · intro j hj
    simp only [List.length_set] at hj
    obtain ⟨k0, k9⟩ := hc j hj
    by_cases hjp : j = p
    · subst hjp
      rw [List.getElem_set_self]
      omega
    · rw [List.getElem_set_ne (by omega)]
      by_cases hj1 : j = p + 1
      · subst hj1
        rw [List.getElem_set_self]
        exact ⟨by omega, Or.inr ⟨rfl, by omega⟩⟩
      · rw [List.getElem_set_ne (by omega), List.getElem_set_ne (by omega)]
        exact ⟨k0, Or.inl (by rcases k9 with h | h <;> omega)⟩
  · rw [val_set _ _ _ (by simpa using hp), val_set _ _ _ (by simpa using h), val_set _ _ _ hp,
      List.getElem_set_ne (by omega), List.getElem_set_ne (by omega), List.getElem_set_self]
    have : (c[p] + q) = 10 * ((c[p] + q) / 10) + (c[p] + q) % 10 := (Int.mul_ediv_add_emod _ _).symm
    rw [pow_succ]
    linear_combination (-(10:ℤ) ^ p) * this

theorem mul_spec {A B : List ℤ} (hA : Digs A) (hB : Digs B) {s : ℤ} (hs : s = 1 ∨ s = -1) :
    (do
      let c ← forRange 0 A.length (fun i c =>
        forRange 0 B.length (fun j c => do
          let p ← imul (← vget A i) (← vget B j)
          let c ← vset c (i + j) (← iadd (← vget c (i + j)) p)
          let cij ← vget c (i + j)
          let c ← vset c (i + j + 1) (← iadd (← vget c (i + j + 1)) (cij.tdiv 10))
          vset c (i + j) (cij.tmod 10)) c) (List.replicate (A.length + B.length) 0)
      pure (BInt.trim { sign := s, chunks := c })) = .ok (enc (s * (val A * val B))) := by
  obtain ⟨c, e, l, d, v⟩ := forRange_inv
    (body := fun i c =>
        forRange 0 B.length (fun j c => do
          let p ← imul (← vget A i) (← vget B j)
          let c ← vset c (i + j) (← iadd (← vget c (i + j)) p)
          let cij ← vget c (i + j)
          let c ← vset c (i + j + 1) (← iadd (← vget c (i + j + 1)) (cij.tdiv 10))
          vset c (i + j) (cij.tmod 10)) c)
    (fun i c => c.length = A.length + B.length ∧ Digs c ∧ val c = val (A.take i) * val B)
    (lo := 0) (hi := A.length) (Nat.zero_le _) (s := List.replicate (A.length + B.length) 0)
    ⟨by simp, digs_replicate_zero _, by simp⟩
    (by
      rintro i c _ hi ⟨l, d, v⟩
      have ha := hA i hi
      obtain ⟨c', e', l', w', v'⟩ := forRange_inv
        (body := fun j c => do
          let p ← imul (← vget A i) (← vget B j)
          let c ← vset c (i + j) (← iadd (← vget c (i + j)) p)
          let cij ← vget c (i + j)
          let c ← vset c (i + j + 1) (← iadd (← vget c (i + j + 1)) (cij.tdiv 10))
          vset c (i + j) (cij.tmod 10))
        (fun j c => c.length = A.length + B.length ∧ Wide (i + j) c ∧
          val c = val (A.take i) * val B + A[i] * 10 ^ i * val (B.take j))
        (lo := 0) (hi := B.length) (Nat.zero_le _) (s := c)
        ⟨l, fun j hj => ⟨(d j hj).1, Or.inl (d j hj).2⟩, by simp [v]⟩
        (by
          rintro j c _ hj ⟨l, w, v⟩
          have hb := hB j hj
          have hq : 0 ≤ A[i] * B[j] ∧ A[i] * B[j] ≤ 81 := ⟨by nlinarith, by nlinarith⟩
          obtain ⟨c', e, l', w', v'⟩ := mul_step (p := i + j) w (by omega) hq
          refine ⟨c', ?_, by omega, w', ?_⟩
          · rw [← e]
            simp only [vget_ok hi, vget_ok hj, Res.ok_bind, imul]
            rw [ck_ok (isInt_of_bound (by omega) (by omega))]
            rfl
          · rw [v', v, val_take_succ _ _ hj, pow_add]; ring)
      rw [List.take_length] at v'
      have hv : val c' = val (A.take (i + 1)) * val B := by
        rw [v', val_take_succ _ _ hi]; ring
      refine ⟨c', e', l', ?_, hv⟩
      intro j hj
      obtain ⟨k0, k9⟩ := w' j hj
      refine ⟨k0, ?_⟩
      rcases k9 with h | ⟨rfl, h⟩
      · exact h
      · have hge := val_ge_digit (fun j hj => (w' j hj).1) _ hj
        have b1 := val_lt (digs_take hA (i + 1))
        rw [show (A.take (i + 1)).length = i + 1 by simp; omega] at b1
        have b2 := val_lt hB
        have b3 := val_nonneg (digs_take hA (i + 1))
        have b4 := val_nonneg hB
        have hlt : val (A.take (i + 1)) * val B < 10 ^ (i + 1) * 10 ^ B.length := by
          have p1 : (0:ℤ) < 10 ^ B.length := by positivity
          nlinarith
        rw [hv] at hge
        have hlt2 : c'[i + B.length] * 10 ^ (i + B.length) < 10 * 10 ^ (i + B.length) := by
          calc _ ≤ _ := hge
            _ < _ := hlt
            _ = _ := by ring
        have : c'[i + B.length] < 10 := lt_of_mul_lt_mul_right hlt2 (by positivity)
        omega)
  rw [e]
  simp only [Res.ok_bind, Res.pure_eq]
  rw [trim_enc d hs, v, List.take_length]

/-! ## construction from `int` -/

theorem isInt_bounds {x : ℤ} : IsInt x ↔ -2147483648 ≤ x ∧ x ≤ 2147483647 := by
  unfold IsInt INT_MIN INT_MAX; rfl

theorem ofInt_loop : ∀ (m : ℕ) (c : List ℤ) (k : ℕ), m < k → m ≤ 2147483647 →
    whileF (fun (s : ℤ × List ℤ) => Res.ok (decide (s.1 > 0)))
    (fun s => do
      let d ← imod s.1 10
      let q ← idiv s.1 10
      pure (q, s.2 ++ [d])) k ((m : ℤ), c) = .ok (0, c ++ (Nat.digits 10 m).map (fun d : ℕ => (d : ℤ))) := by
  intro m
  induction m using Nat.strong_induction_on with
  | _ m ih =>
    intro c k hk hm
    obtain ⟨k, rfl⟩ : ∃ j, k = j + 1 := ⟨k - 1, by omega⟩
    unfold whileF
    by_cases h0 : m = 0
    · subst h0; simp
    · have hpos : (m:ℤ) > 0 := by omega
      have hd : ((m:ℤ)).tdiv 10 = ((m / 10 : ℕ) : ℤ) := by
        rw [Int.tdiv_eq_ediv_of_nonneg (by omega)]; norm_cast
      have hmo : ((m:ℤ)).tmod 10 = ((m % 10 : ℕ) : ℤ) := by
        rw [Int.tmod_eq_emod_of_nonneg (by omega)]; norm_cast
      have hint : IsInt ((m / 10 : ℕ) : ℤ) := by rw [isInt_bounds]; omega
      have e1 : imod (m:ℤ) 10 = .ok ((m % 10 : ℕ) : ℤ) := by
        unfold imod; rw [if_neg (by norm_num), hd, hmo, if_pos hint]
      have e2 : idiv (m:ℤ) 10 = .ok ((m / 10 : ℕ) : ℤ) := by
        unfold idiv; rw [if_neg (by norm_num), hd, ck_ok hint]
      simp only [Res.ok_bind, hpos, decide_true, if_true, e1, e2, Res.pure_eq] at ih ⊢
      rw [ih (m / 10) (by omega) _ k (by omega) (by omega)]
      rw [Nat.digits_def' (by norm_num) (by omega : 0 < m)]
      simp

theorem ofInt_enc {n : ℤ} (h : IsInt n) (h' : n ≠ INT_MIN) : BInt.ofInt n = .ok (enc n) := by
  rw [isInt_bounds] at h
  unfold INT_MIN at h'
  unfold BInt.ofInt iabs
  have habs : (if n < 0 then -n else n) = ((n.natAbs : ℕ) : ℤ) := by split <;> omega
  rw [habs, ck_ok (by rw [isInt_bounds]; omega)]
  simp only [Res.ok_bind]
  rw [ofInt_loop n.natAbs [] _ (by omega) (by omega)]
  simp only [Res.ok_bind, List.nil_append, Res.pure_eq, enc]
  congr 2
  rcases lt_trichotomy n 0 with h | h | h
  · rw [if_neg (by omega), if_neg (by omega), Int.sign_eq_neg_one_of_neg h]
  · subst h; rfl
  · rw [if_neg (by omega), if_pos h, Int.sign_eq_one_of_pos h]

theorem ofInt_small {n : ℤ} (h1 : -1000 ≤ n) (h2 : n ≤ 1000) : BInt.ofInt n = .ok (enc n) :=
  ofInt_enc (isInt_of_bound h1 h2) (by unfold INT_MIN; omega)

theorem ofInt_min : BInt.ofInt INT_MIN = .ub .overflow := by
  unfold BInt.ofInt iabs ck INT_MIN IsInt INT_MIN INT_MAX
  norm_num

theorem mul_enc (x y : ℤ) : BInt.mul (enc x) (enc y) = .ok (enc (x * y)) := by
  unfold BInt.mul BInt.mulAssign
  by_cases hx : x = 0
  · subst hx; rw [if_pos (by simp [enc_zero]), ofInt_small (by norm_num) (by norm_num), zero_mul]
  by_cases hy : y = 0
  · subst hy; rw [if_pos (by simp [enc_zero]), ofInt_small (by norm_num) (by norm_num), mul_zero]
  rw [if_neg (by simp only [enc_sign_eq_zero]; tauto)]
  simp only
  rw [mul_spec (enc_digs x) (enc_digs y) (by split <;> simp), enc_val, enc_val]
  congr 2
  simp only [enc_sign]
  have h1 := Int.sign_mul_abs x
  have h2 := Int.sign_mul_abs y
  rcases sign_cases hx with a | a <;> rcases sign_cases hy with b | b <;> rw [a] at h1 <;> rw [b] at h2 <;>
    simp only [a, b] <;> conv_rhs => rw [← h1, ← h2]
  · norm_num
  · norm_num
  · norm_num
  · norm_num

/-! ## `abs_inc`, `abs_dec` -/

/-- The scan for the first digit different from `c`. -/
theorem scan_spec {v : List ℤ} (c : ℤ) : ∀ (m i : ℕ) (k : ℕ), i + m = v.length → m < k →
    (∃ (j : ℕ) (h : j < v.length), i ≤ j ∧ v[j] ≠ c) →
    ∃ (j : ℕ) (h : j < v.length), whileF (fun i => do pure ((← vget v i) == c)) (fun i => Res.ok (i + 1)) k i = .ok j ∧
      i ≤ j ∧ v[j] ≠ c ∧ ∀ (l : ℕ) (hl : l < v.length), i ≤ l → l < j → v[l] = c
  | 0, i, k, hm, hk, ⟨j, hj, hij, _⟩ => by omega
  | m + 1, i, k, hm, hk, ⟨j, hj, hij, hne⟩ => by
    obtain ⟨k, rfl⟩ : ∃ k', k = k' + 1 := ⟨k - 1, by omega⟩
    have hi : i < v.length := by omega
    unfold whileF
    simp only [vget_ok hi, Res.ok_bind, Res.pure_eq]
    by_cases hc : v[i] = c
    · have hij' : i ≠ j := by rintro rfl; exact hne hc
      obtain ⟨j', hj', e, h1, h2, h3⟩ := scan_spec c m (i + 1) k (by omega) (by omega) ⟨j, hj, by omega, hne⟩
      refine ⟨j', hj', ?_, by omega, h2, ?_⟩
      · simpa [hc] using e
      · intro l hl hil hlj
        by_cases hli : l = i
        · subst hli; exact hc
        · exact h3 l hl (by omega) hlj
    · refine ⟨i, hi, ?_, le_rfl, hc, fun l hl h1 h2 => by omega⟩
      simp [hc]

/-- Setting the digits below `i`, all equal to `c`, to `9 - c`. -/
theorem fill_spec {v : List ℤ} {c d : ℤ} (i : ℕ) (hi : i < v.length) (hv : ∀ (l : ℕ) (h : l < v.length), l < i → v[l] = c)
    (hd : 0 ≤ d ∧ d ≤ 9) (hdig : ∀ (l : ℕ) (h : l < v.length), i ≤ l → 0 ≤ v[l] ∧ v[l] ≤ 9) :
    ∃ a, forDown (fun j v => vset v j d) i v = .ok a ∧ Digs a ∧ 9 * val a = 9 * val v + (d - c) * (10 ^ i - 1) := by
  obtain ⟨a, e, l, h1, h2, hv'⟩ := forDown_inv (body := fun j v => vset v j d)
    (fun j a => a.length = v.length ∧ (∀ (m : ℕ) (h : m < a.length), m < j → a[m] = c) ∧
      (∀ (m : ℕ) (h : m < a.length), j ≤ m → 0 ≤ a[m] ∧ a[m] ≤ 9) ∧
      9 * val a = 9 * val v + (d - c) * (10 ^ i - 10 ^ j)) i v
    ⟨rfl, hv, hdig, by ring⟩
    (by
      rintro j a hj ⟨l, h1, h2, hv'⟩
      have hja : j < a.length := by omega
      refine ⟨a.set j d, vset_ok hja, by simpa using l, ?_, ?_, ?_⟩
      · intro m hm hmj
        simp only [List.length_set] at hm
        rw [List.getElem_set_ne (by omega)]
        exact h1 m hm (by omega)
      · intro m hm hmj
        simp only [List.length_set] at hm
        by_cases hmj' : m = j
        · subst hmj'; rw [List.getElem_set_self]; exact hd
        · rw [List.getElem_set_ne (by omega)]
          exact h2 m hm (by omega)
      · rw [val_set _ _ _ hja, h1 j hja (by omega), mul_add, hv', pow_succ]; ring)
  refine ⟨a, e, fun m hm => h2 m hm (by omega), ?_⟩
  rw [hv']; simp

theorem absInc_spec {X : List ℤ} (hX : Digs X) {s : ℤ} (hs : s = 1 ∨ s = -1) :
    BInt.absInc ⟨s, X⟩ = .ok (enc (s * (val X + 1))) := by
  unfold BInt.absInc
  simp only
  have hv : Digs (X ++ [0]) := digs_append hX (by simpa using digs_replicate_zero 1)
  set v := X ++ [0] with hvdef
  have hval : val v = val X := by rw [hvdef, val_append]; simp
  obtain ⟨j, hj, e, -, h9, hlow⟩ := scan_spec (v := v) 9 v.length 0 (v.length + 1) (by omega) (by omega)
    ⟨X.length, by simp [hvdef], by omega, by simp [hvdef]⟩
  rw [e]
  simp only [Res.ok_bind, vget_ok hj, iadd]
  have hd := hv j hj
  rw [ck_ok (isInt_of_bound (by omega) (by omega))]
  simp only [Res.ok_bind, vset_ok hj]
  obtain ⟨a, ea, da, va⟩ := fill_spec (v := v.set j (v[j] + 1)) (c := 9) (d := 0) j (by simpa using hj)
    (by
      intro l hl hlj
      simp only [List.length_set] at hl
      rw [List.getElem_set_ne (by omega)]
      exact hlow l hl (by omega) hlj)
    (by omega)
    (by
      intro l hl hlj
      simp only [List.length_set] at hl
      by_cases h : l = j
      · subst h; rw [List.getElem_set_self]; omega
      · rw [List.getElem_set_ne (by omega)]; exact hv l hl)
  rw [ea]
  simp only [Res.ok_bind, Res.pure_eq]
  rw [trim_enc da hs]
  congr 3
  rw [val_set _ _ _ hj, hval] at va
  linarith

theorem absDec_spec {X : List ℤ} (hX : Digs X) {s : ℤ} (hs : s = 1 ∨ s = -1) (hne : val X ≠ 0) :
    BInt.absDec ⟨s, X⟩ = .ok (enc (s * (val X - 1))) := by
  unfold BInt.absDec
  simp only
  have hex : ∃ (j : ℕ) (h : j < X.length), 0 ≤ j ∧ X[j] ≠ 0 := by
    by_contra hcon
    push Not at hcon
    apply hne
    have : X = List.replicate X.length 0 := by
      rw [List.eq_replicate_iff]
      refine ⟨rfl, fun b hb => ?_⟩
      obtain ⟨j, hj, rfl⟩ := List.mem_iff_getElem.mp hb
      exact hcon j hj (Nat.zero_le _)
    rw [this]; simp
  obtain ⟨j, hj, e, -, h9, hlow⟩ := scan_spec (v := X) 0 X.length 0 (X.length + 1) (by omega) (by omega) hex
  rw [e]
  simp only [Res.ok_bind, vget_ok hj, isub]
  have hd := hX j hj
  rw [ck_ok (isInt_of_bound (by omega) (by omega))]
  simp only [Res.ok_bind, vset_ok hj]
  obtain ⟨a, ea, da, va⟩ := fill_spec (v := X.set j (X[j] - 1)) (c := 0) (d := 9) j (by simpa using hj)
    (by
      intro l hl hlj
      simp only [List.length_set] at hl
      rw [List.getElem_set_ne (by omega)]
      exact hlow l hl (by omega) hlj)
    (by omega)
    (by
      intro l hl hlj
      simp only [List.length_set] at hl
      by_cases h : l = j
      · subst h; rw [List.getElem_set_self]; omega
      · rw [List.getElem_set_ne (by omega)]; exact hX l hl)
  rw [ea]
  simp only [Res.ok_bind, Res.pure_eq]
  rw [trim_enc da hs]
  congr 3
  rw [val_set _ _ _ hj] at va
  linarith

theorem absInc_enc {x : ℤ} (h : x ≠ 0) : BInt.absInc (enc x) = .ok (enc (x + x.sign)) := by
  rw [enc_eta x, absInc_spec (enc_digs x) (sign_cases h), enc_val, mul_add, Int.sign_mul_abs, mul_one]

theorem absDec_enc {x : ℤ} (h : x ≠ 0) : BInt.absDec (enc x) = .ok (enc (x - x.sign)) := by
  rw [enc_eta x, absDec_spec (enc_digs x) (sign_cases h) (by rw [enc_val]; simpa using h), enc_val, mul_sub,
    Int.sign_mul_abs, mul_one]

theorem inc_enc (x : ℤ) : BInt.inc (enc x) = .ok (enc (x + 1)) := by
  unfold BInt.inc
  rcases lt_trichotomy x 0 with h | h | h
  · have hs := Int.sign_eq_neg_one_of_neg h
    rw [if_neg (by rw [enc_sign, hs]; norm_num), if_neg (by rw [enc_sign, hs]; norm_num), absDec_enc (by omega), hs]
    congr 2
  · subst h; simp [enc]
  · have hs := Int.sign_eq_one_of_pos h
    rw [if_neg (by rw [enc_sign, hs]; norm_num), if_pos (by rw [enc_sign, hs]), absInc_enc (by omega), hs]

theorem dec_enc (x : ℤ) : BInt.dec (enc x) = .ok (enc (x - 1)) := by
  unfold BInt.dec
  rcases lt_trichotomy x 0 with h | h | h
  · have hs := Int.sign_eq_neg_one_of_neg h
    rw [if_neg (by rw [enc_sign, hs]; norm_num), if_neg (by rw [enc_sign, hs]; norm_num), absInc_enc (by omega), hs]
    congr 2
  · subst h; simp [enc]
  · have hs := Int.sign_eq_one_of_pos h
    rw [if_neg (by rw [enc_sign, hs]; norm_num), if_pos (by rw [enc_sign, hs]), absDec_enc (by omega), hs]

end Pyincpp
