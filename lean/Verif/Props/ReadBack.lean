import Verif.Model.ReadBack
import Verif.Props.Printed
import Verif.Props.StrSearch
import Verif.Props.StrNum
import Verif.Props.StrSeq
import Verif.Props.IntMore

/-! # C106: printed values taken apart again with the members of `Str` -/

namespace Pyincpp
open BInt

theorem Returns.bind {α β : Type} {f : Nat → Res α} {g : Nat → α → Res β} {a : α} {b : β} (hf : Returns f a)
    (hg : Returns (fun k => g k a) b) : Returns (fun k => f k >>= g k) b := by
  obtain ⟨N, hN⟩ := hf
  obtain ⟨M, hM⟩ := hg
  refine ⟨max N M, fun k hk => ?_⟩
  have h1 := hN k (by omega)
  have h2 := hM k (by omega)
  beta_reduce at h2 ⊢
  rw [h1, Res.ok_bind, h2]

theorem Returns.pure {α : Type} (a : α) : Returns (fun _ => (.ok a : Res α)) a := ⟨0, fun _ _ => rfl⟩

theorem Returns.mapM {α β γ : Type} {g : Nat → γ → Res β} {shown : α → γ} {G : α → β} :
    ∀ l : List α, (∀ x ∈ l, Returns (fun k => g k (shown x)) (G x)) → Returns (fun k => (l.map shown).mapM (g k)) (l.map G)
  | [], _ => ⟨0, fun _ _ => rfl⟩
  | a :: l, h => by
    have e : (fun k => ((a :: l).map shown).mapM (g k)) =
        fun k => g k (shown a) >>= fun b => (l.map shown).mapM (g k) >>= fun bs => .ok (b :: bs) := by
      funext k
      rw [List.map_cons, List.mapM_cons]
      rfl
    rw [e]
    exact Returns.bind (h a (by simp)) (Returns.bind (Returns.mapM l (fun x hx => h x (by simp [hx]))) (Returns.pure _))

theorem digitValue_digit {c : UInt8} (h : IsDigit c) : digitValue c = some (c.toNat - 48) := by
  unfold digitValue
  exact if_pos h

theorem numeralIn_digits (ds : List UInt8) (h : ∀ c ∈ ds, IsDigit c) : numeralIn 10 ds = denoteNat ds := by
  unfold numeralIn denoteNat
  have key : ∀ (ds : List UInt8) (n : ℕ), (∀ c ∈ ds, IsDigit c) →
      ds.foldl (fun n c => 10 * n + (digitValue c).getD 0) n = ds.foldl (fun n c => 10 * n + (c.toNat - 48)) n := by
    intro ds
    induction ds with
    | nil => intro n _; rfl
    | cons c ds ih =>
      intro n h
      rw [List.foldl_cons, List.foldl_cons, digitValue_digit (h c (by simp)), Option.getD_some]
      exact ih _ (fun x hx => h x (by simp [hx]))
  exact key ds 0 h

theorem numeral_intText (z : ℤ) : IntText 10 (numeral z) z := by
  have hd := natNumeral_digits z.natAbs
  have hin : ∀ c ∈ natNumeral z.natAbs, IsDigitIn 10 c := by
    intro c hc
    have := hd c hc
    exact ⟨c.toNat - 48, digitValue_digit this, by unfold IsDigit at this; omega⟩
  have hv : (numeralIn 10 (natNumeral z.natAbs) : ℤ) = z.natAbs := by
    rw [numeralIn_digits _ hd, denote_natNumeral]
  unfold numeral
  split
  · next h =>
    have := IntText.mk (b := 10) [] [45] (natNumeral z.natAbs) [] (-1) (by simp) .minus (natNumeral_ne_nil _) hin (by simp)
    rw [hv] at this
    have e : -1 * (z.natAbs : ℤ) = z := by omega
    rw [e] at this
    simpa using this
  · next h =>
    have := IntText.mk (b := 10) [] [] (natNumeral z.natAbs) [] 1 (by simp) .none (natNumeral_ne_nil _) hin (by simp)
    rw [hv] at this
    have e : 1 * (z.natAbs : ℤ) = z := by omega
    rw [e] at this
    simpa using this

theorem toInteger_numeral (mem : Mem) (z : ℤ) (h : (numeral z).length ≤ maxLen) :
    Returns (fun k => Str.toInteger mem k (numeral z)) (enc z) :=
  C23_accept_partial mem (numeral z) h 10 (by norm_num) (by norm_num) z (numeral_intText z)

theorem get_pair {α : Type} (a b : α) : Lst.get [a, b] 0 = .ok a ∧ Lst.get [a, b] 1 = .ok b ∧ Lst.get [a] 0 = .ok a := by
  refine ⟨?_, ?_, ?_⟩
  · obtain ⟨x, h1, h2⟩ := (C33_list_index [a, b] (by simp [maxLen]) 0).1 (by simp)
    cases h1; exact h2
  · obtain ⟨x, h1, h2⟩ := (C33_list_index [a, b] (by simp [maxLen]) 1).1 (by simp)
    cases h1; exact h2
  · obtain ⟨x, h1, h2⟩ := (C33_list_index [a] (by simp [maxLen]) 0).1 (by simp)
    cases h1; exact h2

/-- C106 for one integer: `to_integer` of the printed text gives it back. -/
theorem C106_int (mem : Mem) (z : ℤ) (h : (numeral z).length ≤ maxLen) :
    Returns (fun k => do Str.toInteger mem k (← BInt.print (enc z))) (enc z) := by
  have := C23_accept_partial mem (numeral z) h 10 (by norm_num) (by norm_num) z (numeral_intText z)
  simp only [C01_print_canonical, Res.ok_bind]
  exact this

theorem scan_glue {c : UInt8} {q : List UInt8} : ∀ {ps : List (List UInt8)}, ps ≠ [] → (∀ a ∈ ps, c ∉ a) →
    Scan (c :: q) (glue (c :: q) ps) ps
  | [a], _, h => .done a (by
      rintro i ⟨x, y, e, -⟩
      exact h a (by simp) (by rw [e]; simp))
  | a :: b :: ps, _, h => by
    rw [glue]
    refine .step a _ _ ⟨⟨a, _, rfl, rfl⟩, ?_⟩ (scan_glue (by simp) (fun x hx => h x (by simp [hx])))
    rintro j hj ⟨x, y, e, hx⟩
    apply h a (by simp)
    have h1 : (a ++ (c :: q) ++ glue (c :: q) (b :: ps))[j]? = some c := by
      rw [e, List.append_assoc, List.getElem?_append_right (by omega), hx]; simp
    rw [List.append_assoc, List.getElem?_append_left hj] at h1
    exact List.mem_of_getElem? h1

theorem split_glue {c : UInt8} {q : List UInt8} {ps : List (List UInt8)} (keep : Bool) (hne : ps ≠ []) (h : ∀ a ∈ ps, c ∉ a)
    (hlen : (glue (c :: q) ps).length ≤ maxLen) (hlen' : ps.length ≤ maxLen) :
    Returns (fun k => Str.split k (glue (c :: q) ps) (c :: q) keep) (ps.filter (fun a => keep || !a.isEmpty)) := by
  refine ⟨ps.length, fun k hk => ?_⟩
  beta_reduce
  rw [split_run _ _ keep hlen (by simp) ps (scan_glue hne h) k hk, fitted, if_pos]
  exact (List.length_filter_le ..).trans hlen'

theorem slice_inner (a b c d : List UInt8) (n : ℤ) (ha : a.length = n) (hb : d.length = n) (hn : 0 < n)
    (e : b = a ++ (c ++ d)) (hlen : b.length < maxLen) : Returns (fun k => Str.slice k b n (-n)) c := by
  have hl : (b.length : ℤ) = 2 * n + c.length := by
    rw [e, List.length_append, List.length_append]
    push_cast
    omega
  have hm : (b.length : ℤ) < INT_MAX := by
    unfold maxLen at hlen
    unfold INT_MAX
    omega
  obtain ⟨r, h1, h2⟩ := C28_str_slice_partial b hlen n (-n) 1 (by norm_num) (by decide) (by omega) (by omega) (by omega) (by omega)
    n (n + c.length) (by rw [if_neg (by omega)]) (by rw [if_pos (by omega)]; omega)
    (by
      intro j hj
      unfold Before at hj
      omega)
  have : r = c := by
    apply List.ext_getElem?
    intro i
    rw [(h1 i).2]
    by_cases hi : i < c.length
    · rw [if_pos (by unfold Before; omega), e, List.getElem?_append_right (by omega), List.getElem?_append_left (by omega)]
      congr 1
      omega
    · rw [if_neg (by unfold Before; omega), List.getElem?_eq_none (by omega)]
  rw [← this]
  exact h2

theorem intercalate_glue (q : List UInt8) (l : List (List UInt8)) : List.intercalate q l = glue q l := by
  induction l with
  | nil => rfl
  | cons a l ih =>
    cases l with
    | nil => simp [List.intercalate, glue]
    | cons b l =>
      rw [glue, ← ih]
      simp [List.intercalate]

theorem length_le_glue (q : List UInt8) (hq : q ≠ []) (ps : List (List UInt8)) : ps.length ≤ (glue q ps).length + 1 := by
  have hq' : 1 ≤ q.length := by cases q <;> simp at hq ⊢
  induction ps with
  | nil => simp
  | cons a ps ih =>
    cases ps with
    | nil => simp
    | cons b ps =>
      rw [glue, List.length_append, List.length_append]
      simp only [List.length_cons] at ih ⊢
      omega

/-- The common part: what is between the brackets is split into the texts of the elements. -/
theorem read_elems {α β : Type} {shown : α → List UInt8} {g : Nat → List UInt8 → Res β} {G : α → β}
    (o c : UInt8) (l : List α) (hch : ∀ x ∈ l, shown x ≠ [] ∧ 44 ∉ shown x) (hlen : (Bracketed o c (l.map shown)).length < maxLen)
    (hg : ∀ x ∈ l, Returns (fun k => g k (shown x)) (G x)) :
    Returns (fun k => do
      let u ← Str.slice k (Bracketed o c (l.map shown)) 1 (-1)
      let ws ← Str.split k u [44, 32]
      ws.mapM (g k)) (l.map G) := by
  have hL : (Bracketed o c (l.map shown)).length = (glue [44, 32] (l.map shown)).length + 2 := by
    unfold Bracketed
    rw [intercalate_glue]
    simp
  have h1 := slice_inner [o] (Bracketed o c (l.map shown)) (glue [44, 32] (l.map shown)) [c] 1 rfl rfl one_pos
    (by unfold Bracketed; rw [intercalate_glue]; rfl) hlen
  refine Returns.bind h1 ?_
  have h2 : Returns (fun k => Str.split k (glue [44, 32] (l.map shown)) [44, 32]) (l.map shown) := by
    by_cases h0 : l = []
    · subst h0
      have := split_run [] [44, 32] false (by simp) (by simp) [[]] (.done [] (by
        rintro i ⟨x, y, e, -⟩
        have := congrArg List.length e
        simp at this))
      exact ⟨1, fun k hk => by simpa [glue, fitted] using this k (by simpa using hk)⟩
    · have := split_glue (c := 44) (q := [32]) (ps := l.map shown) false (by simpa using h0)
        (by simp only [List.mem_map]; rintro a ⟨x, hx, rfl⟩; exact (hch x hx).2) (by omega)
        (by have := length_le_glue [44, 32] (by simp) (l.map shown); omega)
      have e : (l.map shown).filter (fun a => false || !a.isEmpty) = l.map shown := by
        rw [List.filter_eq_self]
        simp only [List.mem_map]
        rintro a ⟨x, hx, rfl⟩
        simpa using (hch x hx).1
      rwa [e] at this
  refine Returns.bind h2 ?_
  exact Returns.mapM l hg

theorem comma_not_mem_numeral (z : ℤ) : (44 : UInt8) ∉ numeral z ∧ (58 : UInt8) ∉ numeral z ∧ (47 : UInt8) ∉ numeral z := by
  refine ⟨?_, ?_, ?_⟩ <;>
  · intro h
    rcases numeral_chars z _ h with h | h
    · revert h; unfold IsDigit; decide
    · revert h; decide

theorem length_shown {α : Type} {shown : α → List UInt8} (o c : UInt8) {l : List α} {x : α} (hx : x ∈ l) :
    (shown x).length ≤ (Bracketed o c (l.map shown)).length := by
  have key : ∀ l : List α, x ∈ l → (shown x).length ≤ (List.intercalate [44, 32] (l.map shown)).length := by
    intro l
    induction l with
    | nil => simp
    | cons y l ih =>
      intro hx
      rw [elems_cons, List.length_append]
      rcases List.mem_cons.1 hx with rfl | hx
      · omega
      · have := ih hx
        rw [if_neg (by rintro rfl; simp at hx)]
        simp only [List.length_cons]
        omega
  have := key l hx
  unfold Bracketed
  simp only [List.length_cons, List.length_append]
  omega

/-- C106 for `List`, `Deque` and `Set` of integers, whatever their number: slice, split and `to_integer` give the elements
back from the printed text, also if there are none. -/
theorem C106_sequence (mem : Mem) (l : List ℤ) (h : (Bracketed 91 93 (l.map numeral)).length < maxLen) :
    Returns (fun k => do readInts mem k (← Lst.print numeral l)) (l.map enc) ∧
    Returns (fun k => do readInts mem k (← Dq.print numeral l)) (l.map enc) ∧
    Returns (fun k => do readInts mem k (← PSet.print numeral l)) (l.map enc) := by
  obtain ⟨e1, e2, e3, -⟩ := C60_containers numeral numeral numeral l []
  have key : ∀ o c, Returns (fun k => readInts mem k (Bracketed o c (l.map numeral))) (l.map enc) := by
    intro o c
    have h' : (Bracketed o c (l.map numeral)).length < maxLen := by
      unfold Bracketed at h ⊢
      simpa using h
    refine read_elems o c l (fun z _ => ⟨numeral_ne_nil z, (comma_not_mem_numeral z).1⟩) h' (fun z hz => ?_)
    exact toInteger_numeral mem z ((length_shown o c hz).trans h'.le)
  simp only [e1, e2, e3, Res.ok_bind]
  exact ⟨key _ _, key _ _, key _ _⟩

example : (Bracketed 91 93 ([12, -7, 0].map numeral)).length < maxLen := by
  unfold maxLen
  decide +kernel

/-- C106 for `Dict` from integers to integers. -/
theorem C106_dict (mem : Mem) (d : List (ℤ × ℤ))
    (h : (Bracketed 123 125 (d.map (fun p => numeral p.1 ++ 58 :: 32 :: numeral p.2))).length < maxLen) :
    Returns (fun k => do readPairs mem k (← PDict.print numeral numeral d)) (d.map (fun p => (enc p.1, enc p.2))) := by
  simp only [(C60_containers numeral numeral numeral [] d).2.2.2, Res.ok_bind]
  refine read_elems 123 125 d (fun p _ => ⟨by simp, ?_⟩) h (fun p hp => ?_)
  · have h1 := (comma_not_mem_numeral p.1).1
    have h2 := (comma_not_mem_numeral p.2).1
    simp only [List.mem_append, List.mem_cons, not_or]
    exact ⟨h1, by decide, by decide, h2⟩
  · have hl := (length_shown (shown := fun p : ℤ × ℤ => numeral p.1 ++ 58 :: 32 :: numeral p.2) 123 125 hp).trans h.le
    simp only [List.length_append, List.length_cons] at hl
    have hs := split_glue (c := 58) (q := [32]) (ps := [numeral p.1, numeral p.2]) false (by simp)
      (by
        intro a ha
        rcases List.mem_cons.1 ha with rfl | ha
        · exact (comma_not_mem_numeral _).2.1
        · rw [List.mem_singleton.1 ha]
          exact (comma_not_mem_numeral _).2.1)
      (by simp only [glue, List.length_append, List.length_cons, List.length_nil]; omega) (by simp [maxLen])
    have e1 : glue [58, 32] [numeral p.1, numeral p.2] = numeral p.1 ++ 58 :: 32 :: numeral p.2 := by simp [glue]
    have e2 : [numeral p.1, numeral p.2].filter (fun a => false || !a.isEmpty) = [numeral p.1, numeral p.2] := by
      rw [List.filter_eq_self]
      intro a ha
      rcases List.mem_cons.1 ha with rfl | ha
      · simpa using numeral_ne_nil _
      · rw [List.mem_singleton.1 ha]
        simpa using numeral_ne_nil _
    rw [e1, e2] at hs
    refine Returns.bind hs ?_
    have g0 : Lst.get [numeral p.1, numeral p.2] 0 = .ok (numeral p.1) := get_pair _ _ |>.1
    have g1 : Lst.get [numeral p.1, numeral p.2] 1 = .ok (numeral p.2) := get_pair _ _ |>.2.1
    simp only [g0, g1, Res.ok_bind]
    exact Returns.bind (toInteger_numeral mem p.1 (by omega)) (Returns.bind (toInteger_numeral mem p.2 (by omega)) (Returns.pure _))

example : (Bracketed 123 125 ([((1 : ℤ), (-2 : ℤ)), (3, 40)].map (fun p => numeral p.1 ++ 58 :: 32 :: numeral p.2))).length < maxLen := by
  unfold maxLen
  decide +kernel

/-- C106 for `Fraction`. -/
theorem C106_fraction (mem : Mem) {x : Frac} (hx : x.Valid) : Returns (fun k => readFrac mem k (Frac.print x)) x := by
  have hb : ∀ z : ℤ, |z| ≤ INT_MAX → BInt.toInteger ⟨32, true⟩ (enc z) = .ok z := by
    intro z hz
    rw [abs_le] at hz
    unfold INT_MAX at hz
    exact C21_to_integer_partial ⟨32, true⟩ (by unfold IntTy.Std; simp) z (by norm_num; omega) (by norm_num; omega)
      (fun _ => by norm_num; omega)
  have hlen : ∀ z : ℤ, |z| ≤ INT_MAX → (numeral z).length ≤ 11 := by
    intro z hz
    have h1 : z.natAbs < 10 ^ 10 := by
      rw [abs_le] at hz
      unfold INT_MAX at hz
      omega
    have h2 : (natNumeral z.natAbs).length ≤ 10 := by
      unfold natNumeral
      split
      · simp
      · rw [List.length_map, List.length_reverse]
        exact (Nat.digits_length_le_iff (by norm_num) _).2 h1
    unfold numeral
    split
    · rw [List.length_cons]; omega
    · omega
  have hm : 23 ≤ maxLen := by unfold maxLen; norm_num
  have hn := hlen _ hx.num_le
  have hd' : |x.den| ≤ INT_MAX := by rw [abs_of_pos hx.pos]; exact hx.den_le
  have hd := hlen _ hd'
  have hmake : Frac.make x.num x.den = .ok x := by
    obtain ⟨f, h1, h2, h3⟩ := Frac.make_ok hx.num_le hd' hx.pos.ne'
    rw [h1, h2.ext hx h3]
  have hint : ∀ z : ℤ, |z| ≤ INT_MAX →
      Returns (fun k => do BInt.toInteger ⟨32, true⟩ (← Str.toInteger mem k (numeral z))) z := fun z hz =>
    Returns.bind (toInteger_numeral mem z (by have := hlen z hz; omega)) (by rw [hb z hz]; exact Returns.pure z)
  have hne : ∀ l : List ℤ, (l.map numeral).filter (fun a => false || !a.isEmpty) = l.map numeral := by
    intro l
    rw [List.filter_eq_self]
    simp only [List.mem_map]
    rintro a ⟨z, -, rfl⟩
    simpa using numeral_ne_nil z
  have hno : ∀ l : List ℤ, ∀ a ∈ l.map numeral, (47 : UInt8) ∉ a := by
    intro l
    simp only [List.mem_map]
    rintro a ⟨z, -, rfl⟩
    exact (comma_not_mem_numeral z).2.2
  rw [C54_print]
  split
  · next h1 =>
    have hs := split_glue (c := 47) (q := []) (ps := [x.num].map numeral) false (by simp) (hno _)
      (by simp only [glue, List.map_cons, List.map_nil]; omega) (by simp [maxLen])
    rw [hne] at hs
    refine Returns.bind hs ?_
    simp only [List.map_cons, List.map_nil, (get_pair (numeral x.num) (numeral x.num)).2.2, Res.ok_bind]
    refine Returns.bind (toInteger_numeral mem x.num (by omega)) ?_
    rw [hb _ hx.num_le]
    have e1 : Lst.size [numeral x.num] = 1 := by
      unfold Lst.size
      exact (by decide : wrap32 1 = 1)
    simp only [Res.ok_bind, e1, if_true, Res.pure_eq]
    rw [← h1, hmake]
    exact Returns.pure x
  · next h1 =>
    have hs := split_glue (c := 47) (q := []) (ps := [x.num, x.den].map numeral) false (by simp) (hno _)
      (by simp only [glue, List.map_cons, List.map_nil, List.length_append, List.length_cons, List.length_nil]; omega) (by simp [maxLen])
    rw [hne] at hs
    have e1 : glue [47] ([x.num, x.den].map numeral) = numeral x.num ++ 47 :: numeral x.den := by simp [glue]
    rw [e1] at hs
    refine Returns.bind hs ?_
    simp only [List.map_cons, List.map_nil, (get_pair (numeral x.num) (numeral x.den)).1,
      (get_pair (numeral x.num) (numeral x.den)).2.1, Res.ok_bind]
    refine Returns.bind (toInteger_numeral mem x.num (by omega)) ?_
    rw [hb _ hx.num_le]
    have e2 : ¬ Lst.size [numeral x.num, numeral x.den] = 1 := by
      unfold Lst.size
      exact (by decide : wrap32 2 ≠ 1)
    simp only [Res.ok_bind, e2, if_false]
    refine Returns.bind (a := x.den) ?_ (by rw [hmake]; exact Returns.pure x)
    exact hint _ hd'

example : (⟨-22, 7⟩ : Frac).Valid :=
  ⟨by decide, by rw [Int.isCoprime_iff_gcd_eq_one]; decide, by decide, by decide⟩

/-- C106 for lists of strings without a quote, at least one. -/
theorem C106_strings_partial (l : List (List UInt8)) (hl : l ≠ []) (hq : ∀ s ∈ l, (34 : UInt8) ∉ s)
    (h : (Bracketed 91 93 (l.map Str.print)).length < maxLen) :
    Returns (fun k => do readStrs k (← Lst.print Str.print l)) l := by
  have e := bracketed_strings l hl
  have hL : (Bracketed 91 93 (l.map Str.print)).length = (glue [34, 44, 32, 34] l).length + 4 := by
    rw [e]
    simp
  simp only [(C60_containers Str.print Str.print Str.print l []).1, Res.ok_bind]
  refine Returns.bind (slice_inner [91, 34] _ (glue [34, 44, 32, 34] l) [34, 93] 2 rfl rfl two_pos e h) ?_
  have := split_glue (c := 34) (q := [44, 32, 34]) (ps := l) true hl hq (by omega)
    (by have := length_le_glue [34, 44, 32, 34] (by simp) l; omega)
  simpa using this

example : ([[97], [], [98, 44, 32]] : List (List UInt8)) ≠ [] ∧ ∀ s ∈ ([[97], [], [98, 44, 32]] : List (List UInt8)), (34 : UInt8) ∉ s := by
  decide

/-- C106 is false of the code for other lists of strings: a quote within a string is not marked in the text, so that the one
string `a", "b` is read as two; and the text of the empty list is too short for the slice, which throws. -/
theorem C106_strings_not :
    Returns (fun k => do readStrs k (← Lst.print Str.print [[97, 34, 44, 32, 34, 98]])) [[97], [98]] ∧
    ∀ k, (do readStrs k (← Lst.print Str.print []) : Res (List (List UInt8))) = .throw "Error: Index out of range." := by
  constructor
  · rw [C105_str_not]
    exact C106_strings_partial [[97], [98]] (by simp) (by decide) (by unfold maxLen; decide)
  · intro k
    have e : Lst.print Str.print [] = .ok [91, 93] := rfl
    rw [e, Res.ok_bind, readStrs, (C28_str_slice_throws k [91, 93] (by simp [maxLen]) 2 (-2) 1).2 (by norm_num) (by simp), Res.throw_bind]

/-- C106 is false of the code for lists of lists: the separator is the same inside, and the texts of the pieces are no
integers. -/
theorem C106_nested_not : ∃ t, Lst.print (fun l => Bracketed 91 93 (l.map numeral)) [[1, 2], [3]] = .ok t ∧
    ∀ mem, Throws (fun k => readInts mem k t) "Error: Invalid literal for to_integer()." := by
  refine ⟨[91, 91, 49, 44, 32, 50, 93, 44, 32, 91, 51, 93, 93], by decide +kernel, fun mem => ?_⟩
  have h1 : Returns (fun k => Str.slice k [91, 91, 49, 44, 32, 50, 93, 44, 32, 91, 51, 93, 93] 1 (-1))
      [91, 49, 44, 32, 50, 93, 44, 32, 91, 51, 93] :=
    slice_inner [91] _ _ [93] 1 rfl rfl one_pos rfl (by simp [maxLen])
  have h2 : Returns (fun k => Str.split k [91, 49, 44, 32, 50, 93, 44, 32, 91, 51, 93] [44, 32]) [[91, 49], [50, 93], [91, 51, 93]] :=
    split_glue (c := 44) (q := [32]) (ps := [[91, 49], [50, 93], [91, 51, 93]]) false (by simp) (by decide)
      (by simp [glue, maxLen]) (by simp [maxLen])
  have h3 : Throws (fun k => Str.toInteger mem k [91, 49]) "Error: Invalid literal for to_integer()." := by
    refine C23_reject_partial mem [91, 49] (by simp [maxLen]) 10 (by norm_num) (by norm_num) (fun z hz => ?_)
    have hm : (91 : UInt8) ∈ ([91, 49] : List UInt8) := by simp
    generalize ([91, 49] : List UInt8) = t at hz hm
    obtain ⟨ws, sg, ds, ws', σ, h1, h2, -, h4, h5⟩ := hz
    rcases List.mem_append.1 hm with h | h
    · exact absurd (h1 _ h) (by unfold IsBlank; decide)
    rcases List.mem_append.1 h with h | h
    · cases h2 <;> simp at h
    rcases List.mem_append.1 h with h | h
    · obtain ⟨v, e, -⟩ := h4 _ h
      exact absurd e (by unfold digitValue; simp)
    · exact absurd (h5 _ h) (by unfold IsBlank; decide)
  obtain ⟨N1, h1⟩ := h1
  obtain ⟨N2, h2⟩ := h2
  obtain ⟨N3, h3⟩ := h3
  refine ⟨max N1 (max N2 N3), fun k hk => ?_⟩
  beta_reduce
  have e1 := h1 k (by omega)
  have e2 := h2 k (by omega)
  have e3 := h3 k (by omega)
  beta_reduce at e1 e2 e3
  rw [readInts, e1, Res.ok_bind, e2, Res.ok_bind, List.mapM_cons]
  rw [e3]
  rfl

end Pyincpp
