import Verif.Proof.HashTable
import Verif.Props.HashValue
import Verif.Props.FracEqual
import Verif.Props.ComplexEqual

/-! # C107: the library's types as keys of unordered maps and sets -/

namespace Pyincpp

variable {ι κ : Type}

/-- Every history of every unordered map with these keys, in every implementation, is one of a finite map. -/
def ActsAsMap (eq : κ → κ → Res Bool) (hash : κ → BitVec 64) (f : ι → κ) : Prop :=
  ∀ (ν : Type) (I : HImpl κ ν) (n : ℕ) (ops : List (HOp ι ν)), ∃ t,
    HTable.run I eq hash (HTable.empty n) (ops.map (HOp.map f)) = .ok ((HOp.history (fun _ => none) ops).1, t) ∧
    (t.items.map (·.1)).Nodup ∧ ∀ p, p ∈ t.items ↔ ∃ k v, (HOp.history (fun _ => none) ops).2 k = some v ∧ p = (f k, v)

/-- An implementation with one bucket: it looks at every pair. -/
def HImpl.all (κ ν : Type) : HImpl κ ν := ⟨fun _ _ _ => true, fun _ _ => rfl, fun n _ => n, fun _ l => l, fun _ _ => .refl _⟩

/-- An implementation that keeps the hashes and compares them first. -/
def HImpl.codes (κ ν : Type) : HImpl κ ν :=
  ⟨fun _ a b => decide (a = b), fun _ _ => decide_eq_true rfl, fun n _ => n, fun _ l => l, fun _ _ => .refl _⟩

/-- C107, exact extent: keys act as keys of a finite map in every implementation exactly when `==` of any two of them says whether
they are the same. -/
theorem C107_exact (eq : κ → κ → Res Bool) (hash : κ → BitVec 64) (f : ι → κ) :
    ActsAsMap eq hash f ↔ ∀ a b, ∃ t, eq (f a) (f b) = .ok t ∧ (t = true ↔ a = b) := by
  classical
  constructor
  · intro h b a
    obtain ⟨t, h1, -⟩ := h Unit (HImpl.all κ Unit) 1 [.insert a (), .find b]
    have e1 : (HOp.history (fun _ => none) [HOp.insert a (), .find b]).1 =
        [HOut.bool true, .found (if b = a then some () else none)] := by
      simp [HOp.history, HOp.gives, HOp.after, Function.update_apply]
    rw [e1] at h1
    have s1 : HTable.step (HImpl.all κ Unit) eq hash (HTable.empty 1) (.insert (f a) ()) = .ok (.bool true, ⟨1, [(f a, ())], 0⟩) := rfl
    have s2 : HTable.step (HImpl.all κ Unit) eq hash ⟨1, [(f a, ())], 0⟩ (.find (f b)) =
        (eq (f b) (f a) >>= fun t => Res.ok (.found (if t then some () else none), ⟨1, [(f a, ())], 1⟩)) := by
      simp only [HTable.step, HTable.search, HTable.locate, HImpl.all, if_true]
      cases eq (f b) (f a) with
      | ok t => cases t <;> rfl
      | _ => rfl
    simp only [List.map_cons, List.map_nil, HOp.map, HTable.run, s1, s2, Res.ok_bind] at h1
    cases ht : eq (f b) (f a) with
    | ok t =>
      refine ⟨t, rfl, ?_⟩
      rw [ht] at h1
      simp only [Res.ok_bind, Res.ok.injEq, Prod.mk.injEq, List.cons.injEq, true_and, and_true, HOut.found.injEq] at h1
      have := h1.1
      by_cases e : b = a <;> cases t <;> simp_all
    | throw m => rw [ht] at h1; cases h1
    | ub u => rw [ht] at h1; cases h1
    | fuel => rw [ht] at h1; cases h1
  · intro h ν I n ops
    exact HTable.run_spec h ops (fun _ => none) (HTable.empty n) (by simp [HTable.Holds, HTable.empty])

/-- C107 for `Int`, whatever the hashes of `signed char` and `int` are. -/
theorem C107_int (h8 h32 : Int → BitVec 64) : ActsAsMap (fun x y => .ok (BInt.eq x y)) (BInt.hash h8 h32) enc :=
  (C107_exact _ _ _).2 (fun a b => ⟨_, rfl, C09_eq a b⟩)

example : (HOp.history (fun _ => none) [HOp.insert (5 : ℤ) 'a', .assign 5 'b', .find 5, .erase 7, .find 7]).1 =
    [.bool true, .unit, .found (some 'b'), .bool false, .found none] := by
  simp [HOp.history, HOp.gives, HOp.after]

/-- C107 for `Str`, whatever the hash of `std::string` is. -/
theorem C107_str (h : List UInt8 → BitVec 64) : ActsAsMap Str.eq (Str.hash h) id :=
  (C107_exact _ _ _).2 (fun a b => ⟨_, (C64_str a b).2.2.2.2, decide_eq_true_iff⟩)

/-- C107 for `Fraction`, exact extent: the keys used have different nearest doubles. -/
theorem C107_fraction_exact (h : Int → BitVec 64) (K : Set Frac) (hK : ∀ x ∈ K, x.Valid) :
    ActsAsMap (fun x y => .ok (Frac.eq x y)) (Frac.hash h) (Subtype.val : K → Frac) ↔
      ∀ x ∈ K, ∀ y ∈ K, (∃ d, NearestDouble x.val d ∧ NearestDouble y.val d) → x = y := by
  rw [C107_exact]
  constructor
  · intro H x hx y hy hd
    obtain ⟨t, h1, h2⟩ := H ⟨x, hx⟩ ⟨y, hy⟩
    have := (Frac.C52_equal_exact (hK x hx) (hK y hy)).2 hd
    exact congrArg Subtype.val (h2.1 ((Res.ok.inj h1) ▸ this))
  · rintro H ⟨x, hx⟩ ⟨y, hy⟩
    refine ⟨_, rfl, fun e => Subtype.ext (H x hx y hy ((Frac.C52_equal_exact (hK x hx) (hK y hy)).1 e)), fun e => ?_⟩
    cases e
    exact (C52_equal_partial (hK x hx) (hK x hx)).1 rfl

/-- C107 for `Fraction`: numerators and denominators below 2^26. Missing: other fractions, `C107_fraction_exact`. -/
theorem C107_fraction_partial (h : Int → BitVec 64) :
    ActsAsMap (fun x y => .ok (Frac.eq x y)) (Frac.hash h) (Subtype.val : {x : Frac | x.Valid ∧ |x.num| < 2 ^ 26 ∧ x.den < 2 ^ 26} → Frac) := by
  rw [C107_exact]
  rintro ⟨x, hx, hx1, hx2⟩ ⟨y, hy, hy1, hy2⟩
  have hb : |x.num| * y.den + |y.num| * x.den < 2 ^ 53 := by
    have hx3 := hx.pos
    have hy3 := hy.pos
    have e1 : |x.num| * y.den ≤ (2 ^ 26 - 1) * (2 ^ 26 - 1) := mul_le_mul (by omega) (by omega) hy3.le (by norm_num)
    have e2 : |y.num| * x.den ≤ (2 ^ 26 - 1) * (2 ^ 26 - 1) := mul_le_mul (by omega) (by omega) hx3.le (by norm_num)
    norm_num at e1 e2 ⊢
    omega
  refine ⟨_, rfl, fun e => Subtype.ext ?_, fun e => ?_⟩
  · rw [(C52_equal_partial hx hy).2 hb, decide_eq_true_iff] at e
    exact hx.ext hy e
  · cases e
    exact (C52_equal_partial hx hx).1 rfl

example : (⟨-355, 113⟩ : Frac) ∈ {x : Frac | x.Valid ∧ |x.num| < 2 ^ 26 ∧ x.den < 2 ^ 26} :=
  ⟨⟨by decide, by rw [Int.isCoprime_iff_gcd_eq_one]; decide, by decide, by decide⟩, by decide, by decide⟩

/-- C107 fails for `Fraction`: after 2147483647/2147483646 was inserted, one implementation finds 2147483646/2147483645 in the set
and another does not. -/
theorem C107_fraction_not : ∃ x y : Frac, x.Valid ∧ y.Valid ∧ x.val ≠ y.val ∧
    (∃ t, HTable.run (HImpl.all Frac Unit) (fun x y => .ok (Frac.eq x y)) (Frac.hash (BitVec.ofInt 64)) (HTable.empty 1)
      [.insert x (), .find y, .insert y (), .size] = .ok ([.bool true, .found (some ()), .bool false, .size 1], t)) ∧
    (∃ t, HTable.run (HImpl.codes Frac Unit) (fun x y => .ok (Frac.eq x y)) (Frac.hash (BitVec.ofInt 64)) (HTable.empty 1)
      [.insert x (), .find y, .insert y (), .size] = .ok ([.bool true, .found none, .bool true, .size 2], t)) := by
  have hx : (⟨2147483647, 2147483646⟩ : Frac).Valid :=
    ⟨by decide, by rw [Int.isCoprime_iff_gcd_eq_one]; decide +kernel, by decide, by decide⟩
  have hy : (⟨2147483646, 2147483645⟩ : Frac).Valid :=
    ⟨by decide, by rw [Int.isCoprime_iff_gcd_eq_one]; decide +kernel, by decide, by decide⟩
  have he : Frac.eq ⟨2147483646, 2147483645⟩ ⟨2147483647, 2147483646⟩ = true := by decide +kernel
  have hh : Frac.hash (BitVec.ofInt 64) ⟨2147483646, 2147483645⟩ ≠ Frac.hash (BitVec.ofInt 64) ⟨2147483647, 2147483646⟩ := by decide +kernel
  refine ⟨_, _, hx, hy, by unfold Frac.val; norm_num, ⟨⟨1, [(⟨2147483647, 2147483646⟩, ())], 2⟩, ?_⟩,
    ⟨⟨1, [(⟨2147483646, 2147483645⟩, ()), (⟨2147483647, 2147483646⟩, ())], 0⟩, ?_⟩⟩
  · simp [HTable.run, HTable.step, HTable.search, HTable.locate, HTable.push, HTable.empty, HImpl.all, Res.ok_bind, he]
  · simp [HTable.run, HTable.step, HTable.search, HTable.locate, HTable.push, HTable.empty, HImpl.codes, Res.ok_bind, hh]

/-- C107 for `Complex`, exact extent: the keys are finite, and any two differ by at least 2^-52 - 2^-106 in a part. -/
theorem C107_complex_exact (h : Dbl → BitVec 64) (K : Set (Cx Dbl)) :
    ActsAsMap (fun x y => .ok (Cx.eq Arith.double x y)) (Cx.hash h) (Subtype.val : K → Cx Dbl) ↔
      (∀ x ∈ K, ∃ a b : ℚ, x = ⟨.fin a, .fin b⟩) ∧
      ∀ a b c d : ℚ, (⟨.fin a, .fin b⟩ : Cx Dbl) ∈ K → (⟨.fin c, .fin d⟩ : Cx Dbl) ∈ K → (a, b) ≠ (c, d) →
        1 / 2 ^ 52 - 1 / 2 ^ 106 ≤ |a - c| ∨ 1 / 2 ^ 52 - 1 / 2 ^ 106 ≤ |b - d| := by
  rw [C107_exact]
  constructor
  · intro H
    refine ⟨fun x hx => ?_, fun a b c d h1 h2 hne => ?_⟩
    · obtain ⟨t, h1, h2⟩ := H ⟨x, hx⟩ ⟨x, hx⟩
      have := (Res.ok.inj h1).trans (h2.2 rfl)
      obtain ⟨a, b, -, -, e, -⟩ := (C57_equal_exact x x).1 this
      exact ⟨a, b, e⟩
    · by_contra hc
      rw [not_or, not_le, not_le] at hc
      obtain ⟨t, h3, h4⟩ := H ⟨_, h1⟩ ⟨_, h2⟩
      have he : Cx.eq Arith.double ⟨.fin a, .fin b⟩ ⟨.fin c, .fin d⟩ = true := (C57_equal_exact _ _).2 ⟨a, b, c, d, rfl, rfl, hc.1, hc.2⟩
      have := congrArg Subtype.val (h4.1 ((Res.ok.inj h3) ▸ he))
      simp only [Cx.mk.injEq, Dbl.fin.injEq] at this
      exact hne (by rw [this.1, this.2])
  · rintro ⟨H1, H2⟩ ⟨x, hx⟩ ⟨y, hy⟩
    refine ⟨_, rfl, fun e => Subtype.ext ?_, fun e => ?_⟩
    · obtain ⟨a, b, c, d, rfl, rfl, h1, h2⟩ := (C57_equal_exact x y).1 e
      by_contra hne
      rcases H2 a b c d hx hy (fun e => hne (by cases e; rfl)) with h3 | h3
      · exact absurd h1 (not_lt.2 h3)
      · exact absurd h2 (not_lt.2 h3)
    · cases e
      obtain ⟨a, b, rfl⟩ := H1 x hx
      exact (C57_equal_exact _ _).2 ⟨a, b, a, b, rfl, rfl, by norm_num, by norm_num⟩

/-- C107 for `Complex`: Gaussian integers (if they are doubles). Missing: `C107_complex_exact`. -/
theorem C107_complex_partial (h : Dbl → BitVec 64) :
    ActsAsMap (fun x y => .ok (Cx.eq Arith.double x y)) (Cx.hash h) (Subtype.val : {x : Cx Dbl | ∃ a b : ℤ, x = ⟨.fin a, .fin b⟩} → Cx Dbl) := by
  rw [C107_complex_exact]
  refine ⟨fun x ⟨a, b, e⟩ => ⟨a, b, e⟩, ?_⟩
  rintro a' b' c' d' ⟨a, b, e⟩ ⟨c, d, e'⟩ hne
  simp only [Cx.mk.injEq, Dbl.fin.injEq] at e e'
  obtain ⟨rfl, rfl⟩ := e
  obtain ⟨rfl, rfl⟩ := e'
  have one : ∀ p q : ℤ, p ≠ q → (1 / 2 ^ 52 - 1 / 2 ^ 106 : ℚ) ≤ |(p : ℚ) - q| := fun p q hpq => by
    have : (1 : ℤ) ≤ |p - q| := Int.one_le_abs (sub_ne_zero.2 hpq)
    have h2 : (1 : ℚ) ≤ |(p : ℚ) - q| := by exact_mod_cast this
    exact le_trans (by norm_num) h2
  by_cases h1 : a = c
  · exact .inr (one b d (fun h2 => hne (by rw [h1, h2])))
  · exact .inl (one a c h1)

example : (⟨.fin 3, .fin (-4)⟩ : Cx Dbl) ∈ {x : Cx Dbl | ∃ a b : ℤ, x = ⟨.fin a, .fin b⟩} := ⟨3, -4, by norm_num⟩

/-- C107 fails for `Complex`: a number with an infinite part is inserted again and again and never found, whatever the
implementation; and of two that are close, the second is found or not as the implementation chooses. -/
theorem C107_complex_not :
    (∀ (I : HImpl (Cx Dbl) Unit) (h : Dbl → BitVec 64) (n : ℕ), ∃ t,
      HTable.run I (fun x y => .ok (Cx.eq Arith.double x y)) (Cx.hash h) (HTable.empty n)
        [.insert ⟨.inf false, .fin 0⟩ (), .insert ⟨.inf false, .fin 0⟩ (), .find ⟨.inf false, .fin 0⟩, .size] =
        .ok ([.bool true, .bool true, .found none, .size 2], t)) ∧
    (∀ h : Dbl → BitVec 64, h (.fin 0) ≠ h (.fin (3 / 2 ^ 54)) →
      (∃ t, HTable.run (HImpl.all (Cx Dbl) Unit) (fun x y => .ok (Cx.eq Arith.double x y)) (Cx.hash h) (HTable.empty 1)
        [.insert ⟨.fin 0, .fin 0⟩ (), .find ⟨.fin (3 / 2 ^ 54), .fin 0⟩] = .ok ([.bool true, .found (some ())], t)) ∧
      (∃ t, HTable.run (HImpl.codes (Cx Dbl) Unit) (fun x y => .ok (Cx.eq Arith.double x y)) (Cx.hash h) (HTable.empty 1)
        [.insert ⟨.fin 0, .fin 0⟩ (), .find ⟨.fin (3 / 2 ^ 54), .fin 0⟩] = .ok ([.bool true, .found none], t))) := by
  have he : Cx.eq Arith.double ⟨.inf false, .fin 0⟩ ⟨.inf false, .fin 0⟩ = false := by decide +kernel
  have hc : Cx.eq Arith.double ⟨.fin (3 / 2 ^ 54), .fin 0⟩ ⟨.fin 0, .fin 0⟩ = true := by decide +kernel
  refine ⟨fun I h n => ?_, fun h hh => ⟨⟨⟨1, [(⟨.fin 0, .fin 0⟩, ())], 1⟩, ?_⟩, ⟨⟨1, [(⟨.fin 0, .fin 0⟩, ())], 0⟩, ?_⟩⟩⟩
  · have never : ∀ (looks : Cx Dbl → Bool) (l : List (Cx Dbl × Unit)), (∀ p ∈ l, p.1 = ⟨.inf false, .fin 0⟩) →
        ∃ c, HTable.locate looks (fun x y => .ok (Cx.eq Arith.double x y)) ⟨.inf false, .fin 0⟩ l = .ok (none, c) := by
      intro looks l
      induction l with
      | nil => intro _; exact ⟨0, rfl⟩
      | cons p l ih =>
        intro hl
        obtain ⟨c, hc⟩ := ih (fun q hq => hl q (by simp [hq]))
        have hp := hl p (by simp)
        obtain ⟨y, u⟩ := p
        dsimp only at hp
        subst hp
        unfold HTable.locate
        by_cases hs : looks ⟨.inf false, .fin 0⟩ = true
        · exact ⟨c + 1, by simp only [if_pos hs, Res.ok_bind, he, hc, Bool.false_eq_true, if_false, Option.map_none]⟩
        · exact ⟨c, by simp only [if_neg hs, Res.ok_bind, hc, Option.map_none]⟩
    have push : ∀ t : HTable (Cx Dbl) Unit, (∀ p ∈ t.items, p.1 = ⟨.inf false, .fin 0⟩) → ∃ t',
        HTable.step I (fun x y => .ok (Cx.eq Arith.double x y)) (Cx.hash h) t (.insert ⟨.inf false, .fin 0⟩ ()) = .ok (.bool true, t') ∧
        (∀ p ∈ t'.items, p.1 = ⟨.inf false, .fin 0⟩) ∧ t'.items.length = t.items.length + 1 := fun t ht => by
      obtain ⟨c, hc⟩ := never (fun y => I.looks t.buckets (Cx.hash h ⟨.inf false, .fin 0⟩) (Cx.hash h y)) t.items ht
      refine ⟨HTable.push I { t with calls := t.calls + c } ⟨.inf false, .fin 0⟩ (), ?_, fun p hp => ?_, ?_⟩
      · simp only [HTable.step, HTable.search, hc, Res.ok_bind]
      · rcases List.mem_cons.1 ((I.order_perm _ _).mem_iff.1 hp) with rfl | hp
        · rfl
        · exact ht p hp
      · exact (I.order_perm _ _).length_eq
    obtain ⟨t1, h1, h2, h3⟩ := push (HTable.empty n) (by simp [HTable.empty])
    obtain ⟨t2, h4, h5, h6⟩ := push t1 h2
    obtain ⟨c, hc'⟩ := never (fun y => I.looks t2.buckets (Cx.hash h ⟨.inf false, .fin 0⟩) (Cx.hash h y)) t2.items h5
    have h7 : HTable.step I (fun x y => .ok (Cx.eq Arith.double x y)) (Cx.hash h) t2 (.find ⟨.inf false, .fin 0⟩) =
        .ok (.found none, { t2 with calls := t2.calls + c }) := by
      simp only [HTable.step, HTable.search, hc', Res.ok_bind]
    refine ⟨{ t2 with calls := t2.calls + c }, ?_⟩
    have hlen : t2.items.length = 2 := by rw [h6, h3]; rfl
    simp only [HTable.run, h1, h4, h7, Res.ok_bind]
    simp only [HTable.step, Res.ok_bind, hlen]
  · simp [HTable.run, HTable.step, HTable.search, HTable.locate, HTable.push, HTable.empty, HImpl.all, Res.ok_bind, hc]
  · have hne : Cx.hash h ⟨.fin (3 / 2 ^ 54), .fin 0⟩ ≠ Cx.hash h ⟨.fin 0, .fin 0⟩ :=
      fun e => hh (((C81_complex_iff h _ _ _).1.1 e).symm)
    simp [HTable.run, HTable.step, HTable.search, HTable.locate, HTable.push, HTable.empty, HImpl.codes, Res.ok_bind, hne]

/-- C107, the searches, fails for `Int`: inserting `n` different ones calls `==` at least `n * (n - 33) / 66` times, whatever the
implementation, because there are at most 33 hashes (`C81_int_not`). A search is not faster than in a list, up to a factor. -/
theorem C107_search_not (ν : Type) (I : HImpl BInt ν) (n : ℕ) (v : ν) (zs : List ℤ) (hz : zs.Nodup) : ∃ outs t,
    HTable.run I (fun x y => .ok (BInt.eq x y)) (BInt.hash (BitVec.ofInt 64) (BitVec.ofInt 64)) (HTable.empty n)
      (zs.map (fun z => .insert (enc z) v)) = .ok (outs, t) ∧
    zs.length * zs.length ≤ 66 * t.calls + 33 * zs.length := by
  classical
  set R : Set (BitVec 64) := Set.range (fun z : ℤ => BInt.hash (BitVec.ofInt 64) (BitVec.ofInt 64) (enc z)) with hR
  have : Finite (BitVec 64) := Finite.of_injective (fun b => b.toFin) (fun a b e => BitVec.eq_of_toFin_eq e)
  have hfin : R.Finite := Set.toFinite R
  obtain ⟨outs, t, h1, h2⟩ := HTable.calls_bound (I := I) (f := enc) (eq := fun x y => .ok (BInt.eq x y))
    (hash := BInt.hash (BitVec.ofInt 64) (BitVec.ofInt 64)) (fun a b => ⟨_, rfl, C09_eq a b⟩) hfin.toFinset
    (fun k => by rw [Set.Finite.mem_toFinset]; exact ⟨k, rfl⟩) v n zs hz
  refine ⟨outs, t, h1, ?_⟩
  have hcard : hfin.toFinset.card ≤ 33 := by
    rw [← Set.ncard_eq_toFinset_card R hfin]
    exact C81_int_not.1
  have := h2.trans (Nat.mul_le_mul_right _ hcard)
  rw [sq] at this
  omega

example : (List.range 1000).Nodup := List.nodup_range

end Pyincpp
