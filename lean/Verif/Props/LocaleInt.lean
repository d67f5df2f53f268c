import Verif.Props.LocaleIn

/-! # C110: reading numbers with separators in any places -/

namespace Pyincpp
namespace Locale

variable {L : Locale}

/-- Groups of digits with separators between, the rightmost group first. -/
def joined (sep : UInt8) : List (List UInt8) → List UInt8
  | [] => []
  | [a] => a
  | a :: b :: rs => joined sep (b :: rs) ++ sep :: a

/-- The groups stand as the locale would have put them. -/
def WellGrouped (L : Locale) (rs : List (List UInt8)) : Prop :=
  rs.length ≤ 1 ∨ joined L.sep rs = group L.sep L.grouping rs.reverse.flatten

/-- The nearest `int`. -/
def nearest (v : ℤ) : ℤ := max INT_MIN (min INT_MAX v)

theorem last_sep {sep : UInt8} {x y a b : List UInt8} (ha : sep ∉ a) (hb : sep ∉ b) (h : x ++ sep :: a = y ++ sep :: b) : x = y ∧ a = b := by
  rw [List.append_eq_append_iff] at h
  rcases h with ⟨c, e1, e2⟩ | ⟨c, e1, e2⟩
  · cases c with
    | nil =>
      rw [List.append_nil] at e1
      exact ⟨e1.symm, (List.cons.inj e2).2⟩
    | cons d c =>
      obtain ⟨rfl, e3⟩ := List.cons.inj e2
      exact absurd (by rw [e3]; simp) ha
  · cases c with
    | nil =>
      rw [List.append_nil] at e1
      exact ⟨e1, (List.cons.inj e2).2.symm⟩
    | cons d c =>
      obtain ⟨rfl, e3⟩ := List.cons.inj e2
      exact absurd (by rw [e3]; simp) hb

theorem verify_iff (sep : UInt8) : ∀ (rs : List (List UInt8)) (gs : List ℕ), gs ≠ [] → rs ≠ [] → (∀ r ∈ rs, r ≠ [] ∧ sep ∉ r ∧ r.length < 127) →
    (verify gs (rs.map List.length) = true ↔ joined sep rs = group sep gs rs.reverse.flatten) := by
  intro rs
  induction rs with
  | nil => intro _ _ h; exact absurd rfl h
  | cons a rs ih =>
    intro gs hgs _ hr
    obtain ⟨g, gs', rfl⟩ := List.exists_cons_of_ne_nil hgs
    obtain ⟨ha, hsa, hla⟩ := hr a List.mem_cons_self
    cases rs with
    | nil =>
      simp only [List.map_cons, List.map_nil, verify, joined, List.reverse_singleton, List.flatten_singleton]
      by_cases hg : 0 < g ∧ g < 127 ∧ g < a.length
      · constructor
        · intro h
          simp at h
          omega
        · intro h
          have := group_longer (sep := sep) (t := gs') hg
          rw [← h] at this
          omega
      · rw [group_plain (by rintro ⟨g', t', e, h1⟩; cases e; exact hg h1)]
        simp
        omega
    | cons b rs =>
      have hb := (hr b (by simp)).1
      have hds : (a :: b :: rs).reverse.flatten = (b :: rs).reverse.flatten ++ a := by
        rw [List.reverse_cons, List.flatten_append]; simp
      have hpos : 0 < (b :: rs).reverse.flatten.length := by
        rw [List.length_pos_iff]
        intro e
        exact hb (List.flatten_eq_nil_iff.1 e b (by simp))
      have hns : sep ∉ (a :: b :: rs).reverse.flatten := by
        intro h
        obtain ⟨r, h1, h2⟩ := List.mem_flatten.1 h
        exact (hr r (List.mem_reverse.1 h1)).2.1 h2
      have IH := ih (if gs' = [] then [g] else gs') (by split <;> simp_all) (by simp) (fun r h => hr r (List.mem_cons_of_mem _ h))
      rw [List.map_cons, List.map_cons, verify, ← List.map_cons, Bool.and_eq_true, IH, joined, hds]
      · constructor
        · rintro ⟨h1, h2⟩
          have hg : a.length = g := by simpa using h1
          have h0 : 0 < a.length := List.length_pos_iff.2 ha
          have hl : ((b :: rs).reverse.flatten ++ a).length - g = (b :: rs).reverse.flatten.length := by rw [List.length_append]; omega
          conv_rhs => unfold group
          rw [if_pos ⟨by omega, by omega, by rw [List.length_append]; omega⟩, hl, List.take_left, List.drop_left, ← h2]
        · intro h
          by_cases hg : 0 < g ∧ g < 127 ∧ g < ((b :: rs).reverse.flatten ++ a).length
          · have hu : group sep (g :: gs') ((b :: rs).reverse.flatten ++ a) =
                group sep (if gs' = [] then [g] else gs') (((b :: rs).reverse.flatten ++ a).take (((b :: rs).reverse.flatten ++ a).length - g)) ++
                  sep :: ((b :: rs).reverse.flatten ++ a).drop (((b :: rs).reverse.flatten ++ a).length - g) := by
              conv_lhs => unfold group
              rw [if_pos hg]
            rw [hu] at h
            obtain ⟨e1, e2⟩ := last_sep hsa (fun hm => hns (by rw [hds]; exact List.mem_of_mem_drop hm)) h
            have hlen : a.length = g := by
              have := congrArg List.length e2
              rw [List.length_drop] at this
              omega
            refine ⟨by simpa using hlen, ?_⟩
            rw [e1]
            congr 1
            rw [List.length_append, hlen, Nat.add_sub_cancel, List.take_left]
          · rw [group_plain (by rintro ⟨g', t', e, h1⟩; cases e; exact hg h1)] at h
            exact absurd (by rw [hds, ← h]; simp) hns
      · simp

theorem scan_joined (h : L.Usual) : ∀ rs : List (List UInt8), (∀ r ∈ rs, r ≠ [] ∧ ∀ c ∈ r, IsDigit c) → (1 < rs.length → L.used = true) →
    ∀ a f, rs = a :: f → ∀ t, L.scan [] [] (joined L.sep rs ++ t) = L.scan f a t := by
  intro rs
  induction rs with
  | nil => intro _ _ a f e; cases e
  | cons b rs ih =>
    intro hr hu a f e t
    cases e
    cases rs with
    | nil => rw [joined, scan_digits h _ _ _ (hr b (by simp)).2, List.nil_append]
    | cons c rs =>
      rw [joined, List.append_assoc, ih (fun r h => hr r (List.mem_cons_of_mem _ h)) (fun _ => hu (by simp)) c rs rfl, List.cons_append, scan,
        if_pos (by unfold isSep; rw [hu (by simp)]; simp), if_neg (hr c (by simp)).1, scan_digits h _ _ _ (hr b (by simp)).2, List.nil_append]

theorem joined_head (sep : UInt8) : ∀ rs : List (List UInt8), rs ≠ [] → (∀ r ∈ rs, r ≠ [] ∧ ∀ c ∈ r, IsDigit c) →
    ∃ c u, joined sep rs = c :: u ∧ IsDigit c := by
  intro rs
  induction rs with
  | nil => intro h; exact absurd rfl h
  | cons a rs ih =>
    intro _ hr
    cases rs with
    | nil =>
      obtain ⟨h1, h2⟩ := hr a (by simp)
      obtain ⟨c, u, rfl⟩ := List.exists_cons_of_ne_nil h1
      exact ⟨c, u, rfl, h2 c (by simp)⟩
    | cons b rs =>
      obtain ⟨c, u, e, hc⟩ := ih (by simp) (fun r h => hr r (List.mem_cons_of_mem _ h))
      exact ⟨c, u ++ sep :: a, by rw [joined, e, List.cons_append], hc⟩

/-- A sign may stand in front. -/
inductive Sign : List UInt8 → ℤ → Prop
  | none : Sign [] 1
  | plus : Sign [43] 1
  | minus : Sign [45] (-1)

open Classical in
/-- C110, `is >> n` for an `int` on groups of digits: all of them are extracted. The stream fails if the number does not fit, and then
`n` is the nearest `int`; and it fails if the separators do not stand as the locale would have put them, and then `n` is the number
nevertheless. -/
theorem C110_int_exact (L : Locale) (h : L.Usual) (hp : L.sep ≠ 43 ∧ L.point ≠ 43) {s : List UInt8} {σ : ℤ} (hs : Sign s σ) (rs : List (List UInt8)) (hne : rs ≠ [])
    (hr : ∀ r ∈ rs, r ≠ [] ∧ r.length < 127 ∧ ∀ c ∈ r, IsDigit c) (hu : 1 < rs.length → L.used = true) (rest : List UInt8) (he : L.Ends rest) :
    L.readInt ⟨s ++ joined L.sep rs ++ rest, false, false⟩ = (some (nearest (σ * denoteNat rs.reverse.flatten)),
      ⟨rest, rest.isEmpty, decide (¬ (IsInt (σ * denoteNat rs.reverse.flatten) ∧ L.WellGrouped rs))⟩) := by
  have hr' : ∀ r ∈ rs, r ≠ [] ∧ ∀ c ∈ r, IsDigit c := fun r h => ⟨(hr r h).1, (hr r h).2.2⟩
  obtain ⟨c, u, hj, hc⟩ := joined_head L.sep rs hne hr'
  obtain ⟨a, f, rfl⟩ := List.exists_cons_of_ne_nil hne
  have hscan : L.scan [] [] (joined L.sep (a :: f) ++ rest) = (a :: f, true, rest) := by
    rw [scan_joined h (a :: f) hr' hu a f rfl, scan_end he]
  have hem : (a :: f).reverse.flatten.isEmpty = false := by
    rw [List.isEmpty_eq_false_iff]
    intro e
    exact (hr a (by simp)).1 (List.flatten_eq_nil_iff.1 e a (by simp))
  have hwg : (decide (1 < (a :: f).length) && !verify L.grouping ((a :: f).map List.length)) = decide (¬ L.WellGrouped (a :: f)) := by
    rw [Bool.eq_iff_iff]
    simp only [Bool.and_eq_true, decide_eq_true_eq, Bool.not_eq_true', WellGrouped, not_or, not_le]
    refine and_congr_right fun hl => ?_
    have hgs : L.grouping ≠ [] := by
      intro e
      have := hu hl
      unfold used at this
      rw [e] at this
      cases this
    rw [← verify_iff L.sep (a :: f) L.grouping hgs (by simp) (fun r hm => ⟨(hr r hm).1, fun hs => h.sep_digit ((hr r hm).2.2 _ hs), (hr r hm).2.1⟩)]
    simp
  have fin : ∀ v : ℤ, (if v < INT_MIN then (some INT_MIN, (⟨rest, rest.isEmpty, true⟩ : IStream))
      else if INT_MAX < v then (some INT_MAX, ⟨rest, rest.isEmpty, true⟩)
      else (some v, ⟨rest, rest.isEmpty, decide (¬ L.WellGrouped (a :: f))⟩)) =
      (some (nearest v), ⟨rest, rest.isEmpty, decide (¬ (IsInt v ∧ L.WellGrouped (a :: f)))⟩) := by
    intro v
    unfold nearest IsInt
    by_cases h1 : v < INT_MIN
    · rw [if_pos h1, show max INT_MIN (min INT_MAX v) = INT_MIN by unfold INT_MAX INT_MIN at *; omega]
      rw [decide_eq_true (by rintro ⟨h2, -⟩; omega)]
    · rw [if_neg h1]
      by_cases h2 : INT_MAX < v
      · rw [if_pos h2, show max INT_MIN (min INT_MAX v) = INT_MAX by unfold INT_MAX INT_MIN at *; omega]
        rw [decide_eq_true (by rintro ⟨h3, -⟩; omega)]
      · rw [if_neg h2, show max INT_MIN (min INT_MAX v) = v by omega]
        have : (¬ ((INT_MIN ≤ v ∧ v ≤ INT_MAX) ∧ L.WellGrouped (a :: f))) ↔ ¬ L.WellGrouped (a :: f) := by
          rw [and_iff_right ⟨by omega, by omega⟩]
        simp only [this]
  obtain ⟨n1, n2⟩ := IStream.digit_ne hc
  have hsp : IStream.isSpace c = false := IStream.isSpace_false (by unfold IsDigit at hc; omega)
  have hdv : IStream.digitsValue (a :: f).reverse.flatten = denoteNat (a :: f).reverse.flatten := rfl
  have sep_ne : ∀ d : UInt8, d ≠ L.sep → L.isSep d = false := by
    intro d hd
    unfold isSep
    rw [beq_eq_false_iff_ne.2 hd, Bool.and_false]
  unfold readInt
  cases hs with
  | none =>
    have h1 : IStream.sentry ⟨[] ++ joined L.sep (a :: f) ++ rest, false, false⟩ = (true, ⟨joined L.sep (a :: f) ++ rest, false, false⟩) := by
      rw [List.nil_append, hj]
      exact IStream.sentry_cons _ hsp
    have hh : (joined L.sep (a :: f) ++ rest).headD 0 = c := by rw [hj]; rfl
    have hsg : ((c == 45 || c == 43) && !L.isSep c && c != L.point) = false := by simp [n1, n2]
    simp only [h1, hh, hsg, Bool.false_and, Bool.false_eq_true, if_false, hscan, hem, hwg, hdv, Bool.false_or, Bool.not_true, Bool.or_false]
    rw [one_mul]
    exact fin _
  | plus =>
    have h1 : IStream.sentry ⟨[43] ++ joined L.sep (a :: f) ++ rest, false, false⟩ = (true, ⟨43 :: (joined L.sep (a :: f) ++ rest), false, false⟩) :=
      IStream.sentry_cons _ rfl
    have hsg : (((43 : UInt8) == 45 || (43 : UInt8) == 43) && !L.isSep 43 && (43 : UInt8) != L.point) = true := by
      rw [sep_ne 43 hp.1.symm, show ((43 : UInt8) != L.point) = true by rw [bne_iff_ne]; exact hp.2.symm]
      rfl
    simp only [h1, List.headD_cons, hsg, if_true, List.drop_succ_cons, List.drop_zero, hscan, hem, hwg, hdv, Bool.false_or, Bool.not_true, Bool.or_false]
    rw [if_neg (show ¬ (false = true) by simp), if_neg (show ¬ ((true && (43 : UInt8) == 45) = true) by decide), one_mul]
    exact fin _
  | minus =>
    have h1 : IStream.sentry ⟨[45] ++ joined L.sep (a :: f) ++ rest, false, false⟩ = (true, ⟨45 :: (joined L.sep (a :: f) ++ rest), false, false⟩) :=
      IStream.sentry_cons _ rfl
    have hsg : (((45 : UInt8) == 45 || (45 : UInt8) == 43) && !L.isSep 45 && (45 : UInt8) != L.point) = true := by
      rw [sep_ne 45 h.sep_minus.symm, show ((45 : UInt8) != L.point) = true by rw [bne_iff_ne]; exact h.point_minus.symm]
      rfl
    simp only [h1, List.headD_cons, hsg, if_true, List.drop_succ_cons, List.drop_zero, hscan, hem, hwg, hdv, Bool.false_or, Bool.not_true, Bool.or_false]
    rw [if_neg (show ¬ (false = true) by simp), if_pos (show ((true && (45 : UInt8) == 45) = true) from rfl), neg_one_mul]
    exact fin _

/-- `12,34` and `-2,147,483,649` are groups. -/
example : Usual ⟨46, 44, [3]⟩ ∧ Sign [45] (-1) ∧ (⟨46, 44, [3]⟩ : Locale).used = true ∧ joined 44 [[51, 52], [49, 50]] = [49, 50, 44, 51, 52] ∧
    (⟨46, 44, [3]⟩ : Locale).Ends [47, 53] :=
  ⟨⟨by decide, by decide, by decide, by decide, by decide⟩, .minus, rfl, rfl, by rintro c r ⟨⟩; exact ⟨by decide, by decide⟩⟩

end Locale

/-- C110, a fraction whose numerator does not fit or has separators in the wrong places: the nearest `int` or the numerator is stored
as the fraction, whatever follows, also `/` and a denominator; there is no exception, but the stream has failed. -/
theorem C110_failed_numerator (L : Locale) (h : L.Usual) (hp : L.sep ≠ 43 ∧ L.point ≠ 43) {s : List UInt8} {σ : ℤ} (hs : Locale.Sign s σ)
    (rs : List (List UInt8)) (hne : rs ≠ []) (hr : ∀ r ∈ rs, r ≠ [] ∧ r.length < 127 ∧ ∀ c ∈ r, IsDigit c) (hu : 1 < rs.length → L.used = true)
    (rest : List UInt8) (he : L.Ends rest) (hf : ¬ (IsInt (σ * denoteNat rs.reverse.flatten) ∧ L.WellGrouped rs))
    (hm : Locale.nearest (σ * denoteNat rs.reverse.flatten) ≠ INT_MIN) (x : Frac) (k : ℕ) (hk : 0 < k) :
    Frac.inputIn L k (x, ⟨s ++ Locale.joined L.sep rs ++ rest, false, false⟩) =
      (.ok (), (⟨Locale.nearest (σ * denoteNat rs.reverse.flatten), 1⟩, ⟨rest, rest.isEmpty, true⟩)) := by
  classical
  have E := Locale.C110_int_exact L h hp hs rs hne hr hu rest he
  rw [decide_eq_true hf] at E
  obtain ⟨c, u, hj, hc⟩ := Locale.joined_head L.sep rs hne (fun r h => ⟨(hr r h).1, (hr r h).2.2⟩)
  generalize hn : Locale.nearest (σ * denoteNat rs.reverse.flatten) = n at E hm ⊢
  have hb : INT_MIN ≤ n ∧ n ≤ INT_MAX := by
    rw [← hn]
    unfold Locale.nearest INT_MIN INT_MAX
    omega
  have hmk : Frac.ofInt n = .ok ⟨n, 1⟩ := by
    have : Frac.Valid ⟨n, 1⟩ := by
      refine ⟨show (0 : ℤ) < 1 by decide, isCoprime_one_right, ?_, show (1 : ℤ) ≤ INT_MAX by decide⟩
      show |n| ≤ INT_MAX
      rw [abs_le]
      unfold INT_MIN INT_MAX at *
      omega
    exact make_self this
  obtain ⟨d, v, hd, hd'⟩ : ∃ d v, s ++ Locale.joined L.sep rs ++ rest = d :: v ∧ (IsDigit d ∨ d = 43 ∨ d = 45) := by
    cases hs with
    | none => exact ⟨c, u ++ rest, by rw [hj]; rfl, .inl hc⟩
    | plus => exact ⟨43, _, rfl, .inr (.inl rfl)⟩
    | minus => exact ⟨45, _, rfl, .inr (.inr rfl)⟩
  have hpk : IStream.peek ⟨s ++ Locale.joined L.sep rs ++ rest, false, false⟩ = ((d.toNat : ℤ), ⟨s ++ Locale.joined L.sep rs ++ rest, false, false⟩) := by
    rw [hd]; rfl
  have hpar : Frac.parseWith L.readInt ⟨s ++ Locale.joined L.sep rs ++ rest, false, false⟩ = (.ok ⟨n, 1⟩, ⟨rest, rest.isEmpty, true⟩) := by
    unfold Frac.parseWith
    simp only [hpk, Frac.starts_digit hd', Bool.true_eq_false, if_false, E]
    have : IStream.peek ⟨rest, rest.isEmpty, true⟩ = (-1, ⟨rest, rest.isEmpty, true⟩) := by
      unfold IStream.peek IStream.good
      simp
    simp only [this]
    rw [if_pos (by decide), hmk]
  rw [hd] at hpar ⊢
  refine Frac.inputIn_ok ?_ hpar hk
  rcases hd' with h | rfl | rfl
  · unfold IsDigit at h; omega
  · decide
  · decide

end Pyincpp
