import Verif.Proof.ListLoops
import Verif.Proof.Loops
import Mathlib.Data.List.Perm.Basic

/-! # `slice`, `operator*`, `uniquify`, `sort`, `map`, `index` -/

namespace Pyincpp
namespace Lst

variable {α : Type}

/-! ## slice -/

theorem sliceLoop_ok (l : List α) (stop step : Int) : ∀ (n k : Nat) (i : Int) (buf : List α),
    (∀ j : Nat, j < n → Before step (i + j * step) stop ∧ 0 ≤ i + j * step ∧ i + j * step < l.length) →
    ¬ Before step (i + n * step) stop → n < k → l.length ≤ maxLen → step ≠ 0 → (n = 0 ∨ IsInt (i + n * step)) →
    ∃ r, sliceLoop l stop step k i buf = .ok (buf ++ r) ∧ r.length = n ∧
      ∀ j : Nat, j < n → r[j]? = l[(i + j * step).toNat]?
  | 0, k, i, buf, _, hstop, hk, hl, hs, _ => by
    obtain ⟨k, rfl⟩ : ∃ k', k = k' + 1 := ⟨k - 1, by omega⟩
    refine ⟨[], ?_, rfl, by simp⟩
    rw [sliceLoop, if_neg, List.append_nil]
    unfold Before at hstop; simp at hstop
    split <;> omega
  | n + 1, k, i, buf, hb, hstop, hk, hl, hs, hov => by
    obtain ⟨k, rfl⟩ : ∃ k', k = k' + 1 := ⟨k - 1, by omega⟩
    obtain ⟨b0, b1, b2⟩ := hb 0 (by omega)
    simp only [Nat.cast_zero, Int.zero_mul, Int.add_zero] at b0 b1 b2
    have hshift : ∀ j : Nat, i + step + j * step = i + ((j + 1 : Nat) : Int) * step := by intro j; push_cast; ring
    have hint : IsInt (i + step) := by
      rcases Nat.eq_zero_or_pos n with h0 | h0
      · subst h0; rcases hov with h | h
        · omega
        · simpa using h
      · obtain ⟨_, c1, c2⟩ := hb 1 (by omega)
        simp only [Nat.cast_one, Int.one_mul] at c1 c2
        unfold maxLen at hl; rw [isInt_iff]; omega
    obtain ⟨r, e1, e2, e3⟩ := sliceLoop_ok l stop step n k (i + step) (buf ++ [l[i.toNat]])
      (fun j hj => by rw [hshift]; exact hb (j + 1) (by omega))
      (by rw [hshift]; exact hstop) (by omega) hl hs
      (by rw [hshift]; rcases hov with h | h
          · omega
          · exact Or.inr h)
    refine ⟨l[i.toNat] :: r, ?_, by simp [e2], ?_⟩
    · rw [sliceLoop, if_pos (by unfold Before at b0; split <;> omega), vat_ok b1 (by omega), Res.ok_bind, iadd_ok hint,
        Res.ok_bind, e1]
      simp
    · intro j hj
      cases j with
      | zero => simp [List.getElem?_eq_getElem (show i.toNat < l.length by omega)]
      | succ j =>
        rw [List.getElem?_cons_succ, e3 j (by omega), hshift]

theorem sliceLoop_ub (l : List α) (stop step : Int) : ∀ (n k : Nat) (i : Int) (buf : List α),
    (∀ j : Nat, j < n → Before step (i + j * step) stop ∧ 0 ≤ i + j * step ∧ i + j * step < l.length) →
    n < k → 0 < n → l.length ≤ maxLen → step ≠ 0 → ¬ IsInt (i + n * step) →
    sliceLoop l stop step k i buf = .ub .overflow
  | 0, _, _, _, _, _, h0, _, _, _ => by omega
  | n + 1, k, i, buf, hb, hk, _, hl, hs, hov => by
    obtain ⟨k, rfl⟩ : ∃ k', k = k' + 1 := ⟨k - 1, by omega⟩
    obtain ⟨b0, b1, b2⟩ := hb 0 (by omega)
    simp only [Nat.cast_zero, Int.zero_mul, Int.add_zero] at b0 b1 b2
    have hshift : ∀ j : Nat, i + step + j * step = i + ((j + 1 : Nat) : Int) * step := by intro j; push_cast; ring
    rw [sliceLoop, if_pos (by unfold Before at b0; split <;> omega), vat_ok b1 (by omega), Res.ok_bind]
    rcases Nat.eq_zero_or_pos n with h0 | h0
    · subst h0
      have : ¬ IsInt (i + step) := by simpa using hov
      rw [iadd, ck_ub this, Res.ub_bind]
    · obtain ⟨_, c1, c2⟩ := hb 1 (by omega)
      simp only [Nat.cast_one, Int.one_mul] at c1 c2
      have hint : IsInt (i + step) := by unfold maxLen at hl; rw [isInt_iff]; omega
      rw [iadd_ok hint, Res.ok_bind]
      exact sliceLoop_ub l stop step n k (i + step) _ (fun j hj => by rw [hshift]; exact hb (j + 1) (by omega))
        (by omega) h0 hl hs (by rw [hshift]; exact hov)

/-- The number of elements of a slice. -/
theorem exists_rounds (start stop step : Int) : ∃ n : Nat,
    (∀ j : Nat, j < n → Before step (start + j * step) stop) ∧
    (∀ j : Nat, n ≤ j → ¬ Before step (start + j * step) stop) := by
  have hex : ∃ n : Nat, ¬ Before step (start + n * step) stop := by
    refine ⟨(stop - start).natAbs, ?_⟩
    unfold Before
    rintro (⟨h1, h2⟩ | ⟨h1, h2⟩)
    · have : ((stop - start).natAbs : Int) * 1 ≤ (stop - start).natAbs * step :=
        Int.mul_le_mul_of_nonneg_left (by omega) (by omega)
      omega
    · have : ((stop - start).natAbs : Int) * step ≤ (stop - start).natAbs * (-1) :=
        Int.mul_le_mul_of_nonneg_left (by omega) (by omega)
      omega
  obtain ⟨n, hn, hmin⟩ : ∃ n : Nat, ¬ Before step (start + n * step) stop ∧
      ∀ j < n, Before step (start + j * step) stop := by
    classical
    exact ⟨Nat.find hex, Nat.find_spec hex, fun j hj => by_contra fun h => Nat.find_min hex hj h⟩
  refine ⟨n, hmin, fun j hj hb => ?_⟩
  apply hn
  unfold Before at hb ⊢
  have hj' : (n : Int) ≤ j := by exact_mod_cast hj
  rcases hb with ⟨h1, h2⟩ | ⟨h1, h2⟩
  · left
    have := Int.mul_le_mul_of_nonneg_right hj' (Int.le_of_lt h1)
    omega
  · right
    have := Int.mul_le_mul_of_nonpos_right hj' (Int.le_of_lt h1)
    omega

/-- The arguments after conversion of negative indices. -/
theorem slice_args {l : List α} {start stop step : Int} (k : Nat) (hl : l.length < maxLen) (hstep : step ≠ 0)
    (h1 : -(l.length : Int) ≤ start) (h2 : start < l.length) (h3 : -(l.length : Int) - 1 ≤ stop) (h4 : stop ≤ l.length) :
    slice k l start stop step =
      sliceLoop l (if stop < 0 then stop + l.length else stop) step k (if start < 0 then start + l.length else start) [] := by
  unfold slice
  rw [if_neg hstep, size_eq (by omega)]
  unfold maxLen at hl
  rw [ineg_ok (by rw [isInt_iff]; omega), Res.ok_bind, checkBounds_ok ⟨h1, h2⟩, Res.ok_bind,
    isub_ok (by rw [isInt_iff]; omega), Res.ok_bind, iadd_ok (by rw [isInt_iff]; omega), Res.ok_bind,
    checkBounds_ok (by omega), Res.ok_bind]
  have hs : size l = l.length := size_eq (by unfold maxLen; omega)
  have e1 : fromEnd l start = .ok (if start < 0 then start + l.length else start) := by
    unfold fromEnd; rw [hs]; split
    · exact iadd_ok (by rw [isInt_iff]; omega)
    · rfl
  have e2 : fromEnd l stop = .ok (if stop < 0 then stop + l.length else stop) := by
    unfold fromEnd; rw [hs]; split
    · exact iadd_ok (by rw [isInt_iff]; omega)
    · rfl
  rw [e1, Res.ok_bind, e2, Res.ok_bind]

theorem slice_throw {l : List α} {start stop step : Int} (k : Nat) (hl : l.length < maxLen) (hstep : step ≠ 0)
    (h : ¬ (-(l.length : Int) ≤ start ∧ start < l.length ∧ -(l.length : Int) - 1 ≤ stop ∧ stop ≤ l.length)) :
    slice k l start stop step = .throw msgIndex := by
  unfold slice
  rw [if_neg hstep, size_eq (by omega)]
  unfold maxLen at hl
  rw [ineg_ok (by rw [isInt_iff]; omega), Res.ok_bind]
  by_cases ha : -(l.length : Int) ≤ start ∧ start < l.length
  · rw [checkBounds_ok ha, Res.ok_bind,
      isub_ok (by rw [isInt_iff]; omega), Res.ok_bind, iadd_ok (by rw [isInt_iff]; omega), Res.ok_bind,
      checkBounds_throw (by omega), Res.throw_bind]
  · rw [checkBounds_throw ha, Res.throw_bind]

/-- All visited indices are inside the list. -/
theorem slice_inside {l : List α} {s t step : Int} {j : Nat} (hs : 0 ≤ s) (hs' : s < l.length) (ht : -1 ≤ t)
    (ht' : t ≤ l.length) (h : Before step (s + j * step) t) : 0 ≤ s + j * step ∧ s + j * step < l.length := by
  rcases h with ⟨h1, h2⟩ | ⟨h1, h2⟩
  · have : 0 ≤ (j : Int) * step := Int.mul_nonneg (by omega) (by omega)
    omega
  · have : (j : Int) * step ≤ j * 0 := Int.mul_le_mul_of_nonneg_left (by omega) (by omega)
    omega

/-! ## repetition -/

theorem mul_run [Inhabited α] {l : List α} {t : Int} (hl : l.length ≤ maxLen) (ht : 0 ≤ t)
    (hfit : (l.length : Int) * t < INT_MAX) : mul l t = .ok (List.replicate t.toNat l).flatten := by
  have hfit' := hfit
  unfold INT_MAX at hfit'
  have hnn : 0 ≤ (l.length : Int) * t := Int.mul_nonneg (by omega) ht
  unfold mul
  rw [if_neg (by omega), size_eq hl, imul_ok (by rw [isInt_iff]; omega), Res.ok_bind, checkFull_ok hfit, Res.ok_bind,
    if_neg (by omega)]
  have hn : ((l.length : Int) * t).toNat = t.toNat * l.length := by
    rw [Int.toNat_mul (by omega) ht]; simp [Nat.mul_comm]
  unfold forRange
  rw [Nat.sub_zero]
  have key : ∀ (m i : Nat), i + m = t.toNat →
      forUp (fun part b => do
        let p ← iter b (← imul (l.length : Int) part)
        stdCopy l b p) i m ((List.replicate i l).flatten ++ List.replicate (m * l.length) default) =
      .ok (List.replicate t.toNat l).flatten := by
    intro m
    induction m with
    | zero => intro i hi; simp at hi; subst hi; simp [forUp]
    | succ m ih =>
      intro i hi
      have hlen : ((List.replicate i l).flatten).length = i * l.length := by simp
      have hle : (i + 1) * l.length ≤ t.toNat * l.length := Nat.mul_le_mul_right _ (by omega)
      have hle2 : t.toNat * l.length < 2147483647 := by omega
      have hexp : (i + 1) * l.length = i * l.length + l.length := by ring
      have hexp2 : (m + 1) * l.length = m * l.length + l.length := by ring
      have hcast : (l.length : Int) * (i : Int) = ((i * l.length : Nat) : Int) := by push_cast; ring
      have eI : imul (l.length : Int) (i : Int) = .ok ((i * l.length : Nat) : Int) := by
        rw [imul_ok (by rw [hcast, isInt_iff]; omega), hcast]
      rw [forUp, eI]
      rw [Res.ok_bind, iter_ok (by omega) (by simp), Res.ok_bind, Int.toNat_natCast, stdCopy, if_pos (by simp; omega),
        Res.ok_bind]
      rw [← ih (i + 1) (by omega)]
      congr 1
      rw [List.take_append_of_le_length (by omega), List.take_of_length_le (by omega), List.drop_append, hlen,
        List.drop_of_length_le (by omega), List.replicate_succ', List.flatten_append]
      simp [hexp2]
  have := key t.toNat 0 (by omega)
  rw [hn]
  simpa using this

/-! ## uniquify -/

theorem uniquifyLoop_spec [BEq α] [LawfulBEq α] : ∀ (l pre buf : List α),
    buf.Nodup → (∀ x, x ∈ buf ↔ x ∈ pre) → buf.Pairwise (fun a b => pre.idxOf a < pre.idxOf b) →
    ∃ r, uniquifyLoop l buf = .ok r ∧ r.Nodup ∧ (∀ x, x ∈ r ↔ x ∈ pre ++ l) ∧
      r.Pairwise (fun a b => (pre ++ l).idxOf a < (pre ++ l).idxOf b)
  | [], pre, buf, h1, h2, h3 => ⟨buf, rfl, h1, by simpa using h2, by simpa using h3⟩
  | e :: es, pre, buf, h1, h2, h3 => by
    rw [uniquifyLoop, stdFind_all, Res.ok_bind]
    have hidx : ∀ x ∈ pre, (pre ++ [e]).idxOf x = pre.idxOf x := fun x hx => List.idxOf_append_of_mem hx
    have hpw : buf.Pairwise (fun a b => (pre ++ [e]).idxOf a < (pre ++ [e]).idxOf b) := by
      apply List.Pairwise.imp_of_mem _ h3
      intro a b ha hb hab
      rw [hidx a ((h2 a).1 ha), hidx b ((h2 b).1 hb)]; exact hab
    by_cases hm : e ∈ buf
    · have hlt := List.findIdx_lt_length_of_exists (xs := buf) (p := fun x => x == e) ⟨e, hm, by simp⟩
      rw [if_neg (by omega)]
      obtain ⟨r, e1, e2, e3, e4⟩ := uniquifyLoop_spec es (pre ++ [e]) buf h1
        (by intro x; rw [h2 x, List.mem_append, List.mem_singleton]
            constructor
            · exact Or.inl
            · rintro (h | rfl)
              · exact h
              · exact (h2 x).1 hm) hpw
      refine ⟨r, e1, e2, by simpa using e3, by simpa using e4⟩
    · have hnot : buf.findIdx (fun x => x == e) = buf.length := by
        rw [List.findIdx_eq_length]; intro x hx
        have : x ≠ e := fun h => hm (h ▸ hx)
        simpa using this
      rw [if_pos hnot]
      have hpre : e ∉ pre := fun h => hm ((h2 e).2 h)
      obtain ⟨r, e1, e2, e3, e4⟩ := uniquifyLoop_spec es (pre ++ [e]) (buf ++ [e])
        (by rw [List.nodup_append]; refine ⟨h1, by simp, ?_⟩
            intro a ha b hb; simp at hb; subst hb; exact fun h => hm (h ▸ ha))
        (by intro x; simp [h2 x])
        (by rw [List.pairwise_append]; refine ⟨hpw, by simp, ?_⟩
            intro a ha b hb; simp at hb; subst hb
            have ha' := (h2 a).1 ha
            rw [hidx a ha', List.idxOf_append_of_notMem hpre]
            have := List.idxOf_lt_length_of_mem ha'
            simp; omega)
      refine ⟨r, e1, e2, by simpa using e3, by simpa using e4⟩

/-! ## sort -/

theorem StrictWeak.le_trans {lt : α → α → Bool} (h : StrictWeak lt) (a b c : α)
    (h1 : (!(lt b a)) = true) (h2 : (!(lt c b)) = true) : (!(lt c a)) = true := by
  simp only [Bool.not_eq_true'] at *
  by_contra hca
  have hca : lt c a = true := by simpa using hca
  have hbc : lt b c = false := by
    by_contra hbc
    have := h.trans b c a (by simpa using hbc) hca
    simp [h1] at this
  have hab : lt a b = false := by
    by_contra hab
    have := h.trans c a b hca (by simpa using hab)
    simp [h2] at this
  have := (h.incomp a b c hab h1 hbc h2).2
  simp [hca] at this

theorem StrictWeak.total {lt : α → α → Bool} (h : StrictWeak lt) (a b : α) :
    ((!(lt b a)) || (!(lt a b))) = true := by
  by_contra hc
  simp at hc
  have := h.trans a b a hc.2 hc.1
  simp [h.irrefl a] at this

/-! ## map -/

theorem forEach_run {σ : Type} (action : α → σ → Res Unit × α × σ) (hok : ∀ x s, (action x s).1 = .ok ()) :
    ∀ (n i : Nat) (l : List α) (s : σ), i + n = l.length →
      forEach action n i (l, s) = (.ok (), l.take i ++ (eachInOrder (fun x s => (action x s).2) (l.drop i) s).1,
        (eachInOrder (fun x s => (action x s).2) (l.drop i) s).2)
  | 0, i, l, s, h => by
    have : l.drop i = [] := by simp; omega
    simp only [forEach, Meth.pure_run, this, eachInOrder]
    rw [List.take_of_length_le (by omega)]; simp
  | n + 1, i, l, s, h => by
    have hi : i < l.length := by omega
    rw [forEach, Meth.get_bind]
    simp only [vget_ok hi, Meth.lift_ok_bind, Meth.set_bind, hok]
    rw [forEach_run action hok n (i + 1) _ _ (by simp; omega), List.drop_set_of_lt (by omega), take_set_succ hi,
      drop_cons hi]
    simp [eachInOrder]

/-! ## index -/

theorem index_run [BEq α] [LawfulBEq α] {l : List α} {e : α} {start stop : Int} (hl : l.length ≤ maxLen)
    (h1 : 0 ≤ start) (h2 : start ≤ min stop l.length) :
    ∃ r, index l e start stop = .ok r ∧
      ((r = -1 ∧ ∀ i : Nat, start ≤ i → (i : Int) < stop → l[i]? ≠ some e) ∨
       ∃ p : Nat, r = p ∧ start ≤ p ∧ (p : Int) < stop ∧ l[p]? = some e ∧ ∀ i : Nat, start ≤ i → i < p → l[i]? ≠ some e) := by
  obtain ⟨b, hb⟩ : ∃ b : Nat, (b : Int) = if stop > l.length then (l.length : Int) else stop :=
    ⟨(if stop > l.length then (l.length : Int) else stop).toNat, by split <;> omega⟩
  obtain ⟨a, rfl⟩ : ∃ a : Nat, start = a := ⟨start.toNat, by omega⟩
  have hbl : b ≤ l.length ∧ (b : Int) ≤ stop ∧ a ≤ b := by split at hb <;> omega
  unfold index
  rw [size_eq hl, ← hb, iter_ok (by omega) (by omega), Res.ok_bind, iter_ok (by omega) (by omega), Res.ok_bind]
  simp only [Int.toNat_natCast, stdFind]
  rw [if_pos ⟨hbl.2.2, hbl.1⟩, Res.ok_bind]
  set q := ((l.drop a).take (b - a)).findIdx (fun x => x == e) with hq
  have hlen : ((l.drop a).take (b - a)).length = b - a := by simp; omega
  have hqle : q ≤ b - a := by rw [← hlen]; exact List.findIdx_le_length
  have hat : ∀ j, j < b - a → ((l.drop a).take (b - a))[j]? = l[a + j]? := by
    intro j hj; rw [List.getElem?_take_of_lt hj, List.getElem?_drop]
  have hbefore : ∀ i : Nat, a ≤ i → i < a + q → l[i]? ≠ some e := by
    intro i h1 h2 h3
    have h4 : i - a < q := by omega
    have := List.not_of_lt_findIdx (xs := (l.drop a).take (b - a)) (p := fun x => x == e) h4
    have h5 := hat (i - a) (by omega)
    rw [show a + (i - a) = i by omega, h3, List.getElem?_eq_getElem (by omega)] at h5
    simp at h5
    simp [h5] at this
  by_cases h : a + q = b
  · refine ⟨-1, by rw [if_pos h]; rfl, Or.inl ⟨rfl, ?_⟩⟩
    intro i hi1 hi2
    by_cases hib : i < b
    · exact hbefore i (by omega) (by omega)
    · have : l.length ≤ i := by split at hb <;> omega
      rw [List.getElem?_eq_none this]; simp
  · refine ⟨((a + q : Nat) : Int), ?_, Or.inr ⟨a + q, rfl, by omega, by omega, ?_, fun i h1 h2 => hbefore i (by omega) h2⟩⟩
    · rw [if_neg h, wrap32_eq (by rw [isInt_iff]; unfold maxLen at hl; omega)]; rfl
    · have hqlt : q < ((l.drop a).take (b - a)).length := by omega
      have := List.findIdx_getElem (xs := (l.drop a).take (b - a)) (p := fun x => x == e) (w := by rw [← hq]; exact hqlt)
      have h5 := hat q (by omega)
      rw [← h5, List.getElem?_eq_getElem hqlt]
      simp only [← hq] at this
      simpa using this

theorem index_ub_start [BEq α] {l : List α} {e : α} {start stop : Int}
    (h : ¬ (0 ≤ start ∧ start ≤ l.length)) : index l e start stop = .ub .badRange := by
  unfold index
  rw [iter_ub h, Res.ub_bind]

theorem index_ub_stop [BEq α] {l : List α} {e : α} {start stop : Int} (hl : l.length ≤ maxLen)
    (h : 0 ≤ start ∧ start ≤ l.length) (h' : stop < start) : index l e start stop = .ub .badRange := by
  unfold index
  rw [iter_ok h.1 h.2, Res.ok_bind, size_eq hl, if_neg (by omega)]
  by_cases h0 : 0 ≤ stop
  · rw [iter_ok h0 (by omega), Res.ok_bind]
    unfold stdFind
    rw [if_neg (by omega), Res.ub_bind]
  · rw [iter_ub (by omega), Res.ub_bind]

end Lst
end Pyincpp
