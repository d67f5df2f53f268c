import Verif.Model.SignedZero
import Verif.Proof.DoubleMore
import Verif.Proof.ComplexStream
import Verif.Spec.Decimal

/-! # C95: the sign of a zero -/

namespace Pyincpp

/-- The number, without the sign of a zero. -/
def SDbl.forget : SDbl → Dbl
  | .nan => .nan
  | .inf s => .inf s
  | .fin s q => .fin (SDbl.value s q)

/-- The complex number, without the signs of zeros. -/
def Cx.forget (x : Cx SDbl) : Cx Dbl := ⟨x.re.forget, x.im.forget⟩

namespace SDbl

theorem rnd_nonneg {v : ℚ} (h : 0 ≤ v) : 0 ≤ Dbl.rnd v := by
  unfold Dbl.rnd
  have hu := Dbl.ulp_pos v
  exact mul_nonneg (by exact_mod_cast Dbl.le_roundEven (n := 0) (by push_cast; exact div_nonneg h hu.le)) hu.le

theorem rnd_nonpos {v : ℚ} (h : v ≤ 0) : Dbl.rnd v ≤ 0 := by
  have := rnd_nonneg (v := -v) (by linarith)
  rw [Dbl.rnd_neg] at this
  linarith

theorem value_zero (s : Bool) : value s 0 = 0 := by cases s <;> simp [value]

theorem value_neg (s : Bool) (q : ℚ≥0) : value (!s) q = -value s q := by cases s <;> simp [value]

theorem value_abs (s : Bool) (q : ℚ≥0) : |value s q| = q := by
  have : (0 : ℚ) ≤ q := q.2
  cases s <;> simp [value]

theorem value_eq_zero {s : Bool} {q : ℚ≥0} : value s q = 0 ↔ q = 0 := by cases s <;> simp [value]

theorem value_lt {s : Bool} {q : ℚ≥0} (h : q ≠ 0) : decide (value s q < 0) = s := by
  have : (0 : ℚ) < q := NNRat.coe_pos.2 (pos_iff_ne_zero.2 h)
  cases s <;> simp [value, this]

theorem value_nnabs {x v : ℚ} (h0 : v = 0 → x = 0) (h1 : 0 ≤ v → 0 ≤ x) (h2 : v ≤ 0 → x ≤ 0) (s : Bool) :
    value (if v = 0 then s else decide (v < 0)) (Rat.nnabs x) = x := by
  by_cases hv : v = 0
  · rw [if_pos hv, h0 hv]
    simp [value]
  · rw [if_neg hv]
    rcases lt_or_gt_of_ne hv with h | h
    · simp [value, h, abs_of_nonpos (h2 h.le)]
    · simp [value, not_lt.2 h.le, abs_of_nonneg (h1 h.le)]

theorem forget_round (s : Bool) (v : ℚ) : (round s v).forget = Dbl.ofRat v := by
  unfold round
  cases h : Dbl.ofRat v with
  | nan => rfl
  | inf t => rfl
  | fin x =>
    obtain ⟨rfl, -⟩ := Dbl.of_fin h
    exact congrArg Dbl.fin (value_nnabs (fun e => by rw [e, Dbl.rnd_zero]) rnd_nonneg rnd_nonpos s)

theorem forget_ofInt (n : ℤ) : (ofInt n).forget = Dbl.ofInt n := forget_round _ _

theorem forget_neg (x : SDbl) : x.neg.forget = x.forget.neg := by
  cases x with
  | nan => rfl
  | inf s => rfl
  | fin s q => exact congrArg Dbl.fin (value_neg s q)

theorem forget_abs (x : SDbl) : x.abs.forget = x.forget.abs := by
  cases x with
  | nan => rfl
  | inf s => rfl
  | fin s q => exact congrArg Dbl.fin (value_abs s q).symm

theorem forget_add (x y : SDbl) : (add x y).forget = Dbl.add x.forget y.forget := by
  cases x <;> cases y <;> try rfl
  · rename_i s t
    by_cases h : s = t <;> simp [add, forget, Dbl.add, h]
  · exact forget_round _ _

theorem forget_sub (x y : SDbl) : (sub x y).forget = Dbl.sub x.forget y.forget := by
  rw [sub, forget_add, forget_neg, Dbl.sub]

theorem forget_mul (x y : SDbl) : (mul x y).forget = Dbl.mul x.forget y.forget := by
  cases x <;> cases y <;> try rfl
  · rename_i s t q
    show SDbl.forget (if q = 0 then nan else inf (s != t)) = if value t q = 0 then Dbl.nan else Dbl.inf (s != decide (value t q < 0))
    by_cases h : q = 0
    · rw [if_pos h, if_pos (value_eq_zero.2 h)]; rfl
    · rw [if_neg h, if_neg (fun e => h (value_eq_zero.1 e)), value_lt h]; rfl
  · rename_i s p t
    show SDbl.forget (if p = 0 then nan else inf (s != t)) = if value s p = 0 then Dbl.nan else Dbl.inf (decide (value s p < 0) != t)
    by_cases h : p = 0
    · rw [if_pos h, if_pos (value_eq_zero.2 h)]; rfl
    · rw [if_neg h, if_neg (fun e => h (value_eq_zero.1 e)), value_lt h]; rfl
  · exact forget_round _ _

/-- Only a division by the negative zero depends on its sign. -/
theorem forget_div (x y : SDbl) (hy : y ≠ fin true 0) : (div x y).forget = Dbl.div x.forget y.forget := by
  have sign : ∀ {t : Bool} {q : ℚ≥0}, fin t q ≠ fin true 0 → decide (value t q < 0) = t := by
    intro t q h
    by_cases hq : q = 0
    · cases t with
      | true => exact absurd (by rw [hq]) h
      | false => simp [value, hq]
    · exact value_lt hq
  cases x <;> cases y <;> try rfl
  · rename_i s t q
    show Dbl.inf (s != t) = Dbl.inf (s != decide (value t q < 0))
    rw [sign hy]
  · rename_i s p t
    exact congrArg Dbl.fin (value_zero _)
  · rename_i s p t q
    show SDbl.forget (if q = 0 then (if p = 0 then nan else inf (s != t)) else round (s != t) (value s p / value t q)) =
      if value t q = 0 then (if value s p = 0 then Dbl.nan else Dbl.inf (decide (value s p < 0))) else Dbl.ofRat (value s p / value t q)
    by_cases hq : q = 0
    · rw [if_pos hq, if_pos (value_eq_zero.2 hq)]
      have ht : t = false := by
        cases t with
        | true => exact absurd (by rw [hq]) hy
        | false => rfl
      by_cases hp : p = 0
      · rw [if_pos hp, if_pos (value_eq_zero.2 hp)]; rfl
      · rw [if_neg hp, if_neg (fun e => hp (value_eq_zero.1 e)), value_lt hp, ht, Bool.bne_false]; rfl
    · rw [if_neg hq, if_neg (fun e => hq (value_eq_zero.1 e)), forget_round]

theorem forget_lt (x y : SDbl) : lt x y = Dbl.lt x.forget y.forget := by
  cases x <;> cases y <;> rfl

/-- Not negative. -/
def Plus (x : SDbl) : Prop := x ≠ inf true ∧ ∀ q, x ≠ fin true q

theorem plus_round {v : ℚ} (h : 0 ≤ v) : Plus (round false v) := by
  unfold round
  cases ho : Dbl.ofRat v with
  | nan => exact ⟨by simp, by simp⟩
  | inf t =>
    refine ⟨?_, by simp⟩
    unfold Dbl.ofRat at ho
    split at ho
    · have := Dbl.inf.inj ho
      rw [← this]
      simp [not_lt.2 h]
    · cases ho
  | fin x =>
    refine ⟨by simp, fun q => ?_⟩
    by_cases hv : v = 0 <;> simp [hv, not_lt.2 h]

theorem plus_square (x : SDbl) : Plus (mul x x) := by
  cases x with
  | nan => exact ⟨by simp [mul], by simp [mul]⟩
  | inf s => exact ⟨by simp [mul], by simp [mul]⟩
  | fin s q =>
    show Plus (round (s != s) _)
    rw [bne_self_eq_false]
    exact plus_round (mul_self_nonneg _)

theorem plus_add {x y : SDbl} (hx : Plus x) (hy : Plus y) : Plus (add x y) := by
  cases x with
  | nan => exact ⟨by simp [add], by simp [add]⟩
  | inf s =>
    cases y with
    | nan => exact ⟨by simp [add], by simp [add]⟩
    | inf t =>
      have h1 : s = false := by cases s <;> simp_all [Plus]
      have h2 : t = false := by cases t <;> simp_all [Plus]
      subst h1 h2
      exact ⟨by simp [add], by simp [add]⟩
    | fin t q => exact ⟨hx.1, by simp [add]⟩
  | fin s p =>
    cases y with
    | nan => exact ⟨by simp [add], by simp [add]⟩
    | inf t => exact ⟨hy.1, by simp [add]⟩
    | fin t q =>
      have h1 : s = false := by cases s <;> simp_all [Plus]
      have h2 : t = false := by cases t <;> simp_all [Plus]
      subst h1 h2
      exact plus_round (add_nonneg p.2 q.2)

end SDbl

namespace Cx
open SDbl

theorem forget_eq (x y : Cx SDbl) : Cx.eq Arith.signed x y = Cx.eq Arith.double x.forget y.forget := by
  have e : SDbl.forget (.fin false (1 / 2 ^ 52)) = Dbl.epsilon := by
    show Dbl.fin (value false (1 / 2 ^ 52)) = Dbl.fin (1 / 2 ^ 52)
    simp [value]
  have h : ∀ a b : SDbl, SDbl.lt (SDbl.abs (SDbl.sub a b)) (.fin false (1 / 2 ^ 52)) = Dbl.lt (Dbl.abs (Dbl.sub a.forget b.forget)) Dbl.epsilon := fun a b => by
    rw [forget_lt, forget_abs, forget_sub, e]
  show (decide (SDbl.lt _ _ = true) && decide (SDbl.lt _ _ = true)) = (decide (Dbl.lt _ _ = true) && decide (Dbl.lt _ _ = true))
  rw [show SDbl.lt (Arith.signed.abs (Arith.signed.sub x.re y.re)) Arith.signed.eps = _ from h x.re y.re,
    show SDbl.lt (Arith.signed.abs (Arith.signed.sub x.im y.im)) Arith.signed.eps = _ from h x.im y.im]
  rfl

theorem forget_zero : Cx.forget ⟨Arith.signed.zero, Arith.signed.zero⟩ = ⟨Arith.double.zero, Arith.double.zero⟩ := by
  show Cx.mk (Dbl.fin (value false 0)) (Dbl.fin (value false 0)) = _
  rw [value_zero]
  rfl

theorem forget_divide (x y : Cx SDbl) : (forget <$> Cx.div Arith.signed x y) = Cx.div Arith.double x.forget y.forget := by
  unfold Cx.div
  rw [forget_eq, forget_zero]
  cases Cx.eq Arith.double y.forget ⟨Arith.double.zero, Arith.double.zero⟩ with
  | true => rfl
  | false =>
    have hd : SDbl.add (SDbl.mul y.re y.re) (SDbl.mul y.im y.im) ≠ .fin true 0 :=
      (plus_add (plus_square y.re) (plus_square y.im)).2 0
    refine congrArg Res.ok (Cx.ext ?_ ?_)
    · refine (forget_div _ _ hd).trans ?_
      simp only [forget_add, forget_mul, Arith.signed]
      rfl
    · refine (forget_div _ _ hd).trans ?_
      simp only [forget_add, forget_sub, forget_mul, Arith.signed]
      rfl

/-- C95, arithmetic: the signs of zeros have no effect on the results of `+ - * /`, unary `-`, `conjugate` and `==`, up to the signs of zeros. -/
theorem C95_arith (x y : Cx SDbl) :
    (Cx.add Arith.signed x y).forget = Cx.add Arith.double x.forget y.forget ∧
    (Cx.sub Arith.signed x y).forget = Cx.sub Arith.double x.forget y.forget ∧
    (Cx.mul Arith.signed x y).forget = Cx.mul Arith.double x.forget y.forget ∧
    (forget <$> Cx.div Arith.signed x y) = Cx.div Arith.double x.forget y.forget ∧
    (Cx.neg Arith.signed x).forget = Cx.neg Arith.double x.forget ∧
    (Cx.conjugate Arith.signed x).forget = Cx.conjugate Arith.double x.forget ∧
    Cx.eq Arith.signed x y = Cx.eq Arith.double x.forget y.forget := by
  refine ⟨?_, ?_, ?_, forget_divide x y, ?_, ?_, forget_eq x y⟩
  · exact Cx.ext (forget_add _ _) (forget_add _ _)
  · exact Cx.ext (forget_sub _ _) (forget_sub _ _)
  · refine Cx.ext ?_ ?_
    · exact (forget_sub _ _).trans (by rw [show Arith.signed.mul = SDbl.mul from rfl, forget_mul, forget_mul]; rfl)
    · exact (forget_add _ _).trans (by rw [show Arith.signed.mul = SDbl.mul from rfl, forget_mul, forget_mul]; rfl)
  · exact Cx.ext (forget_neg _) (forget_neg _)
  · exact Cx.ext rfl (forget_neg _)

/-- `(1 - 0j) * (0 - 0j)` has two negative zeros among its factors; the product is `0 - 0j`. -/
example : Cx.mul Arith.signed ⟨.fin false 1, .fin true 0⟩ ⟨.fin false 0, .fin true 0⟩ = ⟨.fin false 0, .fin true 0⟩ ∧
    Cx.mul Arith.double ⟨.fin 1, .fin 0⟩ ⟨.fin 0, .fin 0⟩ = ⟨.fin 0, .fin 0⟩ := by decide +kernel

/-- C95, hashes: `std::hash<double>` is the same for both zeros, so equal numbers that differ in the sign of a zero have the same hash. -/
theorem C95_hash (h : SDbl → BitVec 64) (hz : h (.fin true 0) = h (.fin false 0)) (x y : Cx SDbl) (e : x.forget = y.forget) :
    Cx.hash h x = Cx.hash h y := by
  have key : ∀ a b : SDbl, a.forget = b.forget → h a = h b := by
    intro a b hab
    cases a with
    | nan => cases b <;> first | rfl | cases hab
    | inf s => cases b <;> first | (cases hab; rfl) | cases hab
    | fin s p =>
      cases b with
      | nan => cases hab
      | inf t => cases hab
      | fin t q =>
        have hv : value s p = value t q := Dbl.fin.inj hab
        have hpq : p = q := by
          have := congrArg (fun r : ℚ => |r|) hv
          simp only [value_abs] at this
          exact NNRat.coe_injective this
        subst hpq
        by_cases h0 : p = 0
        · subst h0
          cases s <;> cases t <;> simp [hz]
        · have : s = t := by rw [← value_lt (s := s) h0, ← value_lt (s := t) h0, hv]
          rw [this]
  unfold Cx.hash
  rw [key _ _ (congrArg Cx.re e), key _ _ (congrArg Cx.im e)]

/-! ## Printing -/

theorem text_plus (q : ℚ≥0) : SDbl.text (.fin false q) = Dbl.text (.fin q) := rfl

theorem text_forget {x : SDbl} (h : x ≠ .fin true 0) : x.text = x.forget.text := by
  cases x with
  | nan => rfl
  | inf s => rfl
  | fin s q =>
    cases s with
    | false => rfl
    | true =>
      have hq : q ≠ 0 := fun e => h (by rw [e])
      have hp : (0 : ℚ) < q := NNRat.coe_pos.2 (pos_iff_ne_zero.2 hq)
      show [45] ++ Dbl.text (.fin q) = Dbl.text (.fin (-(q : ℚ)))
      simp only [Dbl.text]
      rw [if_neg hp.ne', if_neg (not_lt.2 hp.le), if_neg (by linarith : -(q : ℚ) ≠ 0), if_pos (by linarith), neg_neg]
      rfl

theorem text_abs (x : SDbl) : x.abs.text = x.forget.abs.text := by
  rw [← forget_abs]
  refine text_forget ?_
  cases x <;> simp [SDbl.abs]

/-- C95, printing: the text is that of the numbers without the signs of zeros, but a real part that is the negative zero is printed as `-0`.
The sign of a zero in the imaginary part is not printed. -/
theorem C95_print_partial (x : Cx SDbl) :
    Cx.printSigned x = if x.re = .fin true 0 then 40 :: 45 :: (Cx.print Dbl.text x.forget).tail else Cx.print Dbl.text x.forget := by
  unfold Cx.printSigned Cx.print
  rw [text_abs, forget_lt, show SDbl.forget (.fin false 0) = Dbl.fin 0 from congrArg Dbl.fin (value_zero _)]
  by_cases h : x.re = .fin true 0
  · rw [if_pos h, h]
    show _ = 40 :: 45 :: (([40] ++ Dbl.text (SDbl.forget x.re) ++ _ ++ _ ++ _).tail)
    rw [h, show SDbl.forget (.fin true 0) = Dbl.fin 0 from congrArg Dbl.fin (value_zero _)]
    rfl
  · rw [if_neg h, text_forget h]
    rfl

/-- C95 fails: `Complex(0)` and `-Complex(0)` are equal and are printed as `(0+0j)` and `(-0+0j)`. -/
theorem C95_print_not : ∃ x : Cx SDbl, Cx.eq Arith.signed x (Cx.neg Arith.signed x) = true ∧
    Cx.printSigned x = Str.bytes ['(', '0', '+', '0', 'j', ')'] ∧
    Cx.printSigned (Cx.neg Arith.signed x) = Str.bytes ['(', '-', '0', '+', '0', 'j', ')'] :=
  ⟨⟨.fin false 0, .fin false 0⟩, by rw [forget_eq]; decide +kernel, by decide +kernel, by decide +kernel⟩

/-- C95 fails for `arg`, whenever `std::atan2` follows the C standard (F.10.1.4): `atan2(±0, x)` is `±π` for negative `x`. -/
theorem C95_arg_not (M : CMath SDbl) (π : SDbl) (hπ : π ≠ π.neg)
    (h1 : ∀ q, q ≠ 0 → M.atan2 (.fin false 0) (.fin true q) = π) (h2 : ∀ q, q ≠ 0 → M.atan2 (.fin true 0) (.fin true q) = π.neg) :
    ∃ x y : Cx SDbl, Cx.eq Arith.signed x y = true ∧ x.forget = y.forget ∧ Cx.arg M x ≠ Cx.arg M y := by
  refine ⟨⟨.fin true 1, .fin false 0⟩, ⟨.fin true 1, .fin true 0⟩, by rw [forget_eq]; decide +kernel, by decide +kernel, ?_⟩
  show M.atan2 _ _ ≠ M.atan2 _ _
  rw [h1 _ one_ne_zero, h2 _ one_ne_zero]
  exact hπ

/-! ## Programs -/

/-- The statement, without the signs of zeros. -/
def Stmt.forget : Stmt SDbl → Stmt Dbl
  | .lit i x => .lit i x.forget
  | .bin o i j k => .bin o i j k
  | .assign o i j => .assign o i j
  | .neg i j => .neg i j
  | .conj i j => .conj i j
  | .test i j => .test i j
  | .print i => .print i

/-- The same is seen, or a text that begins with `(-0` where the other begins with `(0`. -/
def SeenAlike (a b : Seen) : Prop := a = b ∨ ∃ r, a = .text (40 :: 45 :: 48 :: r) ∧ b = .text (40 :: 48 :: r)

theorem forget_run (o : Op) (x y : Cx SDbl) : (forget <$> o.run Arith.signed x y) = o.run Arith.double x.forget y.forget := by
  obtain ⟨h1, h2, h3, h4, -⟩ := C95_arith x y
  cases o with
  | add => exact congrArg Res.ok h1
  | sub => exact congrArg Res.ok h2
  | mul => exact congrArg Res.ok h3
  | div => exact h4

theorem forget_store (m : ℕ → Cx SDbl) (i : ℕ) (r : Res (Cx SDbl)) :
    (store (fun j => (m j).forget) i (forget <$> r)).1 = (store m i r).1 ∧
    (store (fun j => (m j).forget) i (forget <$> r)).2 = fun j => ((store m i r).2 j).forget := by
  cases r with
  | ok x =>
    refine ⟨rfl, funext fun j => ?_⟩
    show (if j = i then x.forget else (m j).forget) = Cx.forget (if j = i then x else m j)
    split <;> rfl
  | throw e => exact ⟨rfl, rfl⟩
  | ub u => exact ⟨rfl, rfl⟩
  | fuel => exact ⟨rfl, rfl⟩

theorem forget_stmt (c : Stmt SDbl) (m : ℕ → Cx SDbl) :
    SeenAlike (c.run Arith.signed printSigned m).1 (c.forget.run Arith.double (Cx.print Dbl.text) (fun j => (m j).forget)).1 ∧
    (c.forget.run Arith.double (Cx.print Dbl.text) (fun j => (m j).forget)).2 = fun j => ((c.run Arith.signed printSigned m).2 j).forget := by
  have st := fun i r => forget_store m i r
  cases c with
  | lit i x => exact ⟨.inl (st i (.ok x)).1.symm, (st i (.ok x)).2⟩
  | bin o i j k =>
    have h := st i (o.run Arith.signed (m j) (m k))
    rw [forget_run] at h
    exact ⟨.inl h.1.symm, h.2⟩
  | assign o i j =>
    have hr := forget_run o (m i) ((if i = j then none else some (m j)).getD (m i))
    have hd : ((if i = j then none else some (m j)).getD (m i)).forget = (if i = j then none else some (m j).forget).getD (m i).forget := by
      split <;> rfl
    rw [hd] at hr
    simp only [Stmt.run, Stmt.forget, assignM]
    rw [Meth.get_bind, Meth.get_bind, ← hr]
    cases h : o.run Arith.signed (m i) ((if i = j then none else some (m j)).getD (m i)) with
    | ok x => exact ⟨.inl (st i (.ok x)).1.symm, (st i (.ok x)).2⟩
    | throw e => exact ⟨.inl rfl, (st i (.ok (m i))).2⟩
    | ub u => exact ⟨.inl rfl, (st i (.ok (m i))).2⟩
    | fuel => exact ⟨.inl rfl, (st i (.ok (m i))).2⟩
  | neg i j =>
    have h := st i (.ok (Cx.neg Arith.signed (m j)))
    rw [show (forget <$> (Res.ok (Cx.neg Arith.signed (m j)))) = .ok (Cx.neg Arith.double (m j).forget) from
      congrArg Res.ok (C95_arith (m j) (m j)).2.2.2.2.1] at h
    exact ⟨.inl h.1.symm, h.2⟩
  | conj i j =>
    have h := st i (.ok (Cx.conjugate Arith.signed (m j)))
    rw [show (forget <$> (Res.ok (Cx.conjugate Arith.signed (m j)))) = .ok (Cx.conjugate Arith.double (m j).forget) from
      congrArg Res.ok (C95_arith (m j) (m j)).2.2.2.2.2.1] at h
    exact ⟨.inl h.1.symm, h.2⟩
  | test i j => exact ⟨.inl (congrArg Seen.bool (forget_eq _ _)), rfl⟩
  | print i =>
    refine ⟨?_, rfl⟩
    show SeenAlike (.text (printSigned (m i))) (.text (Cx.print Dbl.text (m i).forget))
    rw [C95_print_partial]
    by_cases h : (m i).re = .fin true 0
    · rw [if_pos h]
      have e : Dbl.text (m i).forget.re = [48] := by
        show Dbl.text (SDbl.forget (m i).re) = _
        rw [h, show SDbl.forget (.fin true 0) = Dbl.fin 0 from congrArg Dbl.fin (value_zero _)]
        rfl
      refine .inr ⟨[if Dbl.lt (m i).forget.im (.fin 0) then 45 else 43] ++ Dbl.text (Dbl.abs (m i).forget.im) ++ [106, 41], ?_, ?_⟩ <;>
        simp [Cx.print, e]
    · rw [if_neg h]
      exact .inl rfl

/-- C95, programs: a program with complex variables runs as one without signs of zeros: the same comparisons, the same exceptions, the same values, and
texts that differ at most in a `-0` for the real part. -/
theorem C95_programs_partial : ∀ (p : List (Stmt SDbl)) (m : ℕ → Cx SDbl),
    List.Forall₂ SeenAlike (Stmt.runAll Arith.signed printSigned p m).1
      (Stmt.runAll Arith.double (Cx.print Dbl.text) (p.map Stmt.forget) (fun j => (m j).forget)).1 ∧
    (Stmt.runAll Arith.double (Cx.print Dbl.text) (p.map Stmt.forget) (fun j => (m j).forget)).2 =
      fun j => ((Stmt.runAll Arith.signed printSigned p m).2 j).forget
  | [], m => ⟨.nil, rfl⟩
  | c :: cs, m => by
    obtain ⟨h1, h2⟩ := forget_stmt c m
    obtain ⟨h3, h4⟩ := C95_programs_partial cs (c.run Arith.signed printSigned m).2
    rw [← h2] at h3 h4
    exact ⟨.cons h1 h3, h4⟩

/-- C95: so programs whose constants differ only in the signs of zeros end with the same values, up to the signs of zeros, and as long as
nothing is printed the same is seen. -/
theorem C95_programs (p p' : List (Stmt SDbl)) (m m' : ℕ → Cx SDbl) (hp : p.map Stmt.forget = p'.map Stmt.forget)
    (hm : ∀ j, (m j).forget = (m' j).forget) (hn : ∀ i, Stmt.print i ∉ p) :
    (Stmt.runAll Arith.signed printSigned p m).1 = (Stmt.runAll Arith.signed printSigned p' m').1 ∧
    ∀ j, ((Stmt.runAll Arith.signed printSigned p m).2 j).forget = ((Stmt.runAll Arith.signed printSigned p' m').2 j).forget := by
  have hn' : ∀ i, Stmt.print i ∉ p' := by
    intro i hi
    have : Stmt.print i ∈ p.map Stmt.forget := hp ▸ List.mem_map.2 ⟨_, hi, rfl⟩
    obtain ⟨c, hc, e⟩ := List.mem_map.1 this
    cases c <;> simp [Stmt.forget] at e
    exact hn i (e ▸ hc)
  have hs : ∀ c : Stmt SDbl, (∀ i, c ≠ .print i) → ∀ m : ℕ → Cx SDbl, ∀ t, (c.run Arith.signed printSigned m).1 ≠ .text t := by
    have st : ∀ (m : ℕ → Cx SDbl) i r t, (store m i r).1 ≠ .text t := by
      intro m i r t
      cases r <;> simp [store]
    intro c hc m t
    cases c with
    | lit i x => exact st _ _ _ _
    | bin o i j k => exact st _ _ _ _
    | assign o i j =>
      simp only [Stmt.run]
      split
      · exact st _ _ _ _
      · simp
      · exact st _ _ _ _
    | neg i j => exact st _ _ _ _
    | conj i j => exact st _ _ _ _
    | test i j => simp [Stmt.run]
    | print i => exact absurd rfl (hc i)
  have same : ∀ (p : List (Stmt SDbl)) (m : ℕ → Cx SDbl), (∀ i, Stmt.print i ∉ p) → (Stmt.runAll Arith.signed printSigned p m).1 =
      (Stmt.runAll Arith.double (Cx.print Dbl.text) (p.map Stmt.forget) (fun j => (m j).forget)).1 := by
    intro p
    induction p with
    | nil => intro m _; rfl
    | cons c cs ih =>
      intro m hn
      obtain ⟨h1, h2⟩ := forget_stmt c m
      have h3 := ih (c.run Arith.signed printSigned m).2 (fun i hi => hn i (List.mem_cons_of_mem _ hi))
      rw [← h2] at h3
      refine congrArg₂ List.cons ?_ h3
      rcases h1 with h1 | ⟨r, h1, -⟩
      · exact h1
      · exact absurd h1 (hs c (fun i e => hn i (e ▸ List.mem_cons_self)) m _)
  have hm' : (fun j => (m j).forget) = fun j => (m' j).forget := funext hm
  refine ⟨by rw [same p m hn, same p' m' hn', hp, hm'], fun j => ?_⟩
  have e1 := congrFun (C95_programs_partial p m).2 j
  have e2 := congrFun (C95_programs_partial p' m').2 j
  rw [← e1, ← e2, hp, hm']

/-- A program that divides by a zero, catches the exception, and prints `-Complex(0)`. -/
example : (Stmt.runAll Arith.signed printSigned [.neg 0 1, .bin .div 2 1 0, .print 0] (fun _ => ⟨.fin false 0, .fin false 0⟩)).1 =
    [.nothing, .error "Error: Divide by zero.", .text (Str.bytes ['(', '-', '0', '+', '0', 'j', ')'])] := by decide +kernel

example : ∀ i, Stmt.print i ∉ [Stmt.lit 0 ⟨SDbl.fin true 0, .fin false 1⟩, .test 0 1] := by simp

/-! ## Reading -/

theorem neg_minus (l : List UInt8) : (IStream.scanFloat l).1.neg = decide (l.head? = some 45) := by
  have h : (IStream.scanFloat l).1.neg = (IStream.scanSign l).1 := by
    unfold IStream.scanFloat
    simp only
    split <;> rfl
  rw [h]
  unfold IStream.scanSign
  split
  · simp
  · simp
  · rename_i h1 h2
    symm
    rw [decide_eq_false_iff_not]
    intro e
    cases l with
    | nil => cases e
    | cons c t =>
      cases e
      exact h1 t rfl

theorem forget_read (s : IStream) : (s.readSigned.1.map SDbl.forget, s.readSigned.2) = s.readDouble := by
  unfold IStream.readSigned IStream.readDouble
  cases hs : s.sentry with
  | mk b s' =>
    cases b with
    | false => rfl
    | true =>
      simp only
      cases hv : (IStream.scanFloat s'.buf).1.value with
      | none => simp [SDbl.forget, value_zero]
      | some q =>
        simp only
        have hf := forget_round (IStream.scanFloat s'.buf).1.neg q
        cases hr : SDbl.round (IStream.scanFloat s'.buf).1.neg q with
        | fin t x => rw [hr] at hf; rw [← hf]; rfl
        | nan =>
          rw [hr] at hf
          rw [← hf]
          refine congrArg₂ Prod.mk (congrArg some (congrArg Dbl.fin ?_)) rfl
          have hd : 0 ≤ IStream.dblMax := by unfold IStream.dblMax; norm_num
          simp only [SDbl.value, Rat.coe_nnabs, abs_of_nonneg hd, decide_eq_true_eq]
        | inf t =>
          rw [hr] at hf
          rw [← hf]
          refine congrArg₂ Prod.mk (congrArg some (congrArg Dbl.fin ?_)) rfl
          have hd : 0 ≤ IStream.dblMax := by unfold IStream.dblMax; norm_num
          simp only [SDbl.value, Rat.coe_nnabs, abs_of_nonneg hd, decide_eq_true_eq]

theorem forget_parseImag (r : Option SDbl) (s : IStream) :
    (forget <$> (parseImagSigned r s).1, (parseImagSigned r s).2) = parseImag (r.map SDbl.forget) s := by
  unfold parseImagSigned parseImag
  rw [← forget_read]
  simp only
  cases (s.readSigned.2.readChar).1 with
  | none => rfl
  | some ch =>
    simp only
    split
    · rfl
    · split
      · rfl
      · cases r with
        | none => rfl
        | some r => cases s.readSigned.1 <;> rfl

theorem forget_parse (s : IStream) : (forget <$> (parseSigned s).1, (parseSigned s).2) = parse s := by
  unfold parseSigned parse
  simp only
  split
  · rfl
  · rw [← forget_read]
    simp only
    have hz : SDbl.forget (.fin false 0) = Dbl.fin 0 := congrArg Dbl.fin (value_zero _)
    split
    · cases s.peek.2.readSigned.1 with
      | none => rfl
      | some r =>
        show (Res.ok (Cx.mk r.forget (SDbl.forget (.fin false 0))), _) = _
        rw [hz]; rfl
    · split
      · split
        · cases s.peek.2.readSigned.1 with
          | none => rfl
          | some r =>
            show (Res.ok (Cx.mk (SDbl.forget (.fin false 0)) r.forget), _) = _
            rw [hz]; rfl
        · rfl
      · exact forget_parseImag _ _

/-- C95, reading: `operator>>` reads as without the signs of zeros: the same outcome, the same number up to the sign of a zero, the same stream. -/
theorem C95_read (k : ℕ) (x : Cx SDbl) (s : IStream) :
    (inputSigned k (x, s)).1 = (input k (x.forget, s)).1 ∧
    (inputSigned k (x, s)).2.1.forget = (input k (x.forget, s)).2.1 ∧ (inputSigned k (x, s)).2.2 = (input k (x.forget, s)).2.2 := by
  unfold inputSigned input
  rw [Meth.get_bind, Meth.get_bind]
  cases h : s.skipBlanks k with
  | ok s₀ =>
    have e := forget_parse s₀
    simp only [h, Meth.lift_ok_bind, Meth.set_bind]
    rw [← e]
    cases hp : (parseSigned s₀).1 <;> exact ⟨rfl, rfl, rfl⟩
  | throw m => simp only [h]; exact ⟨rfl, rfl, rfl⟩
  | ub u => simp only [h]; exact ⟨rfl, rfl, rfl⟩
  | fuel => simp only [h]; exact ⟨rfl, rfl, rfl⟩

theorem inputSigned_ok {k : ℕ} {x : Cx SDbl} {s s₀ : IStream} {f : Cx SDbl} (h : s.skipBlanks k = .ok s₀) (hp : (parseSigned s₀).1 = .ok f) :
    inputSigned k (x, s) = (.ok (), (f, (parseSigned s₀).2)) := by
  unfold inputSigned
  rw [Meth.get_bind]
  simp only [h, Meth.lift_ok_bind, Meth.set_bind]
  rw [hp]
  rfl

theorem float_sign {ft : IStream.FloatText} {q : ℚ} (h : ft.value = some q) : (ft.neg = true → q ≤ 0) ∧ (ft.neg = false → 0 ≤ q) := by
  unfold IStream.FloatText.value at h
  have hm : (0 : ℚ) ≤ IStream.digitsValue (ft.int ++ ft.frac) / 10 ^ ft.frac.length := by positivity
  generalize hM : (IStream.digitsValue (ft.int ++ ft.frac) / 10 ^ ft.frac.length : ℚ) = m at h hm
  split at h
  · cases h
  · simp only at h
    split at h
    · cases h
      exact ⟨fun e => by rw [if_pos e]; linarith, fun e => by rw [if_neg (by simp [e])]; exact hm⟩
    · rename_i n ds he
      split at h
      · cases h
      · cases h
        have hz := zpow_nonneg (show (0 : ℚ) ≤ 10 by norm_num) (if n = true then -(IStream.digitsValue ds : ℤ) else (IStream.digitsValue ds : ℤ))
        exact ⟨fun e => by rw [if_pos e]; exact mul_nonpos_of_nonpos_of_nonneg (by linarith) hz, fun e => by rw [if_neg (by simp [e])]; exact mul_nonneg hm hz⟩

open IStream in
/-- C95: the text of a number with a minus that is zero, or too small for a `double`, is read as the negative zero; without a minus, as the other. -/
theorem C95_read_zero (bl t rest : List UInt8) (q : ℚ) (hbl : ∀ b ∈ bl, b.toNat ≤ 0x20) (hd : CxDecimal t q) (hq : Dbl.rnd q = 0) (hr : Stops rest)
    (x : Cx SDbl) (k : ℕ) (hk : bl.length < k) :
    inputSigned k (x, ⟨bl ++ (t ++ rest), false, false⟩) =
      (.ok (), (⟨.fin (decide (t.head? = some 45)) 0, .fin false 0⟩, ⟨rest, rest.isEmpty, rest.isEmpty⟩)) := by
  obtain ⟨c, u, e, hc, hgt⟩ := decimal_start hd rest
  have hs := skipBlanks_ok u hgt bl hbl k hk
  rw [← e] at hs
  obtain ⟨p1, p2⟩ := Frac.peek_stops hr
  obtain ⟨ft, e1, e2⟩ := scan_decimal hd (ends_of_stops hr)
  have hp : peek ⟨t ++ rest, false, false⟩ = ((c.toNat : Int), ⟨t ++ rest, false, false⟩) := by rw [e]; rfl
  have hse : sentry ⟨t ++ rest, false, false⟩ = (true, ⟨t ++ rest, false, false⟩) := by
    rw [e]; exact sentry_cons _ (isSpace_false hgt)
  have hneg : ft.neg = decide (t.head? = some 45) := by
    have := neg_minus (t ++ rest)
    rw [e1] at this
    obtain ⟨c', u', e', -⟩ := decimal_start hd []
    rw [List.append_nil] at e'
    rw [show ft.neg = _ from this, e']
    rfl
  have hsign : (if q = 0 then ft.neg else decide (q < 0)) = decide (t.head? = some 45) := by
    by_cases h0 : q = 0
    · rw [if_pos h0, hneg]
    · rw [if_neg h0, ← hneg]
      obtain ⟨h1, h2⟩ := float_sign e2
      cases hn : ft.neg with
      | true => exact decide_eq_true (lt_of_le_of_ne (h1 hn) h0)
      | false => exact decide_eq_false (not_lt.2 (h2 hn))
  have ho : SDbl.round ft.neg q = .fin (decide (t.head? = some 45)) 0 := by
    have : Dbl.ofRat q = .fin 0 := by
      unfold Dbl.ofRat
      rw [hq, if_neg (by norm_num)]
    unfold SDbl.round
    rw [this]
    simp only
    rw [hsign]
    rfl
  have hread : readSigned ⟨t ++ rest, false, false⟩ = (some (.fin (decide (t.head? = some 45)) 0), ⟨rest, rest.isEmpty, false⟩) := by
    unfold readSigned
    rw [hse]
    simp only [e1, e2, ho]
  have hps : parseSigned ⟨t ++ rest, false, false⟩ = (.ok ⟨.fin (decide (t.head? = some 45)) 0, .fin false 0⟩, ⟨rest, rest.isEmpty, rest.isEmpty⟩) := by
    unfold parseSigned
    rw [hp]
    simp only [hc, Bool.true_eq_false, if_false, hread, p1, p2, if_true]
  rw [inputSigned_ok hs (f := ⟨.fin (decide (t.head? = some 45)) 0, .fin false 0⟩) (by rw [hps]), hps]

/-- `-0` is such a text. -/
example : CxDecimal [45, 48] 0 ∧ Dbl.rnd 0 = 0 ∧ Stops [] := by
  refine ⟨?_, Dbl.rnd_zero, fun c r h => by cases h⟩
  have := CxDecimal.minus [48] _ (.plain _ _ (.int [48] (by simp) (by simp [IsDigit])))
  simpa [denoteNat] using this

end Cx

/-! ## `to_decimal` -/

namespace Str

/-- The variables of `to_decimal`, without the sign of a zero. -/
def DecVars.forget (v : DecVars SDbl) : DecVars Dbl := { sign := v.sign, decimalPart := v.decimalPart.forget, decimalCnt := v.decimalCnt, expSign := v.expSign, expPart := v.expPart }

theorem forget_loop (pow : SDbl → SDbl) (pow' : Dbl → Dbl) (s : List UInt8) : ∀ (cs : List UInt8) (st : St) (v : DecVars SDbl),
    ((fun r => (r.1, r.2.forget)) <$> toDecimalLoop (signedOps pow) s cs st v) = toDecimalLoop (dblOps pow') s cs st v.forget
  | [], st, v => rfl
  | c :: cs, st, v => by
    have ih := forget_loop pow pow' s cs
    have hd : ∀ d : Int, SDbl.forget ((signedOps pow).add ((signedOps pow).mul v.decimalPart ((signedOps pow).ofInt 10)) ((signedOps pow).ofInt d)) =
        (dblOps pow').add ((dblOps pow').mul v.forget.decimalPart ((dblOps pow').ofInt 10)) ((dblOps pow').ofInt d) := fun d => by
      show SDbl.forget (SDbl.add (SDbl.mul _ (SDbl.ofInt 10)) (SDbl.ofInt d)) = _
      rw [SDbl.forget_add, SDbl.forget_mul, SDbl.forget_ofInt, SDbl.forget_ofInt]
      rfl
    unfold toDecimalLoop
    cases getEvent c 10 with
    | throw m => rfl
    | ub u => rfl
    | fuel => rfl
    | ok ev =>
      have hl : ((fun r : St × DecVars SDbl => (r.1, r.2.forget)) <$> leaveLoop s (St.other, v)) = leaveLoop s (St.other, v.forget) := by
        unfold leaveLoop
        cases iadd (size s) 1 <;> rfl
      have h1 : ((fun r : St × DecVars SDbl => (r.1, r.2.forget)) <$> (do
            let d ← charToInteger c 10
            toDecimalLoop (signedOps pow) s cs .int
              { v with decimalPart := (signedOps pow).add ((signedOps pow).mul v.decimalPart ((signedOps pow).ofInt 10)) ((signedOps pow).ofInt d) })) =
          (do
            let d ← charToInteger c 10
            toDecimalLoop (dblOps pow') s cs .int
              { v.forget with decimalPart := (dblOps pow').add ((dblOps pow').mul v.forget.decimalPart ((dblOps pow').ofInt 10)) ((dblOps pow').ofInt d) }) := by
        cases charToInteger c 10 with
        | ok d =>
          exact (ih .int _).trans (congrArg (fun x => toDecimalLoop (dblOps pow') s cs .int { v.forget with decimalPart := x }) (hd d))
        | throw m => rfl
        | ub u => rfl
        | fuel => rfl
      have h2 : ((fun r : St × DecVars SDbl => (r.1, r.2.forget)) <$> (do
            let d ← charToInteger c 10
            let n ← iadd v.decimalCnt 1
            toDecimalLoop (signedOps pow) s cs .dec
              { v with decimalPart := (signedOps pow).add ((signedOps pow).mul v.decimalPart ((signedOps pow).ofInt 10)) ((signedOps pow).ofInt d), decimalCnt := n })) =
          (do
            let d ← charToInteger c 10
            let n ← iadd v.forget.decimalCnt 1
            toDecimalLoop (dblOps pow') s cs .dec
              { v.forget with decimalPart := (dblOps pow').add ((dblOps pow').mul v.forget.decimalPart ((dblOps pow').ofInt 10)) ((dblOps pow').ofInt d), decimalCnt := n }) := by
        cases charToInteger c 10 with
        | ok d =>
          show _ <$> (iadd v.decimalCnt 1 >>= _) = (iadd v.decimalCnt 1 >>= _)
          cases iadd v.decimalCnt 1 with
          | ok n =>
            exact (ih .dec _).trans (congrArg (fun x => toDecimalLoop (dblOps pow') s cs .dec { v.forget with decimalPart := x, decimalCnt := n }) (hd d))
          | throw m => rfl
          | ub u => rfl
          | fuel => rfl
        | throw m => rfl
        | ub u => rfl
        | fuel => rfl
      have h3 : ((fun r : St × DecVars SDbl => (r.1, r.2.forget)) <$> (do
            let d ← charToInteger c 10
            let e ← iadd (← imul v.expPart 10) d
            toDecimalLoop (signedOps pow) s cs .expNum { v with expPart := e })) =
          (do
            let d ← charToInteger c 10
            let e ← iadd (← imul v.forget.expPart 10) d
            toDecimalLoop (dblOps pow') s cs .expNum { v.forget with expPart := e }) := by
        cases charToInteger c 10 with
        | ok d =>
          show _ <$> (imul v.expPart 10 >>= _) = (imul v.expPart 10 >>= _)
          cases imul v.expPart 10 with
          | ok n =>
            show _ <$> (iadd n d >>= _) = (iadd n d >>= _)
            cases iadd n d with
            | ok e => exact ih .expNum _
            | throw m => rfl
            | ub u => rfl
            | fuel => rfl
          | throw m => rfl
          | ub u => rfl
          | fuel => rfl
        | throw m => rfl
        | ub u => rfl
        | fuel => rfl
      simp only [Res.ok_bind]
      cases st <;> cases ev <;> dsimp only <;> first
        | with_reducible exact hl
        | with_reducible exact h1
        | with_reducible exact h2
        | with_reducible exact h3
        | with_reducible exact ih _ _
        | exact ih _ { v with sign := if c == 43 then 1 else -1 }
        | exact ih _ { v with expSign := if c == 43 then 1 else -1 }

/-- C95, `to_decimal`: as without the sign of a zero, if `std::pow(10, ·)` does not depend on it and is no negative zero. -/
theorem C95_to_decimal (pow : SDbl → SDbl) (pow' : Dbl → Dbl) (hp : ∀ x, (pow x).forget = pow' x.forget) (hn : ∀ x, pow x ≠ .fin true 0) (s : List UInt8) :
    (SDbl.forget <$> toDecimal (signedOps pow) s) = toDecimal (dblOps pow') s := by
  unfold toDecimal
  split
  · rfl
  split
  · rfl
  split
  · rfl
  have h := forget_loop pow pow' s (visited s) .start { decimalPart := (signedOps pow).ofInt 0 }
  have h0 : DecVars.forget { decimalPart := (signedOps pow).ofInt 0 } = { decimalPart := (dblOps pow').ofInt 0 } := by
    show DecVars.mk _ (SDbl.forget (SDbl.ofInt 0)) _ _ _ = _
    rw [SDbl.forget_ofInt]
    rfl
  rw [h0] at h
  rw [← h]
  cases toDecimalLoop (signedOps pow) s (visited s) .start { decimalPart := (signedOps pow).ofInt 0 } with
  | throw m => rfl
  | ub u => rfl
  | fuel => rfl
  | ok r =>
    obtain ⟨st, v⟩ := r
    show (SDbl.forget <$> (if _ then _ else _)) = (if _ then _ else _)
    split
    · rfl
    · refine congrArg Res.ok ?_
      show SDbl.forget (SDbl.mul (SDbl.ofInt v.sign) (SDbl.mul (SDbl.div v.decimalPart (pow (SDbl.ofInt v.decimalCnt)))
        (pow (SDbl.mul (SDbl.ofInt v.expSign) (SDbl.ofInt v.expPart))))) = _
      rw [SDbl.forget_mul, SDbl.forget_mul, SDbl.forget_div _ _ (hn _), hp, hp, SDbl.forget_mul]
      simp only [SDbl.forget_ofInt]
      rfl

/-- A `std::pow(10, ·)` that is `1` everywhere meets the hypotheses. -/
example : (∀ x : SDbl, (SDbl.fin false 1).forget = (fun _ => Dbl.fin 1) x.forget) ∧ (∀ _ : SDbl, SDbl.fin false 1 ≠ .fin true 0) :=
  ⟨fun _ => by show (SDbl.fin false 1).forget = Dbl.fin 1; decide +kernel, fun _ => by decide +kernel⟩

/-- C95, `to_decimal`: the text `-0` gives the negative zero, as in Python, if `std::pow(10, 0)` is `1`. -/
theorem C95_to_decimal_minus (pow : SDbl → SDbl) (hp : pow (.fin false 0) = .fin false 1) :
    toDecimal (signedOps pow) (bytes ['-', '0']) = .ok (.fin true 0) ∧ toDecimal (signedOps pow) (bytes ['0']) = .ok (.fin false 0) := by
  have h0 : SDbl.ofInt 0 = .fin false 0 := by decide +kernel
  have h1 : SDbl.mul (SDbl.ofInt 1) (.fin false 0) = .fin false 0 := by decide +kernel
  have h2 : SDbl.add (SDbl.mul (.fin false 0) (SDbl.ofInt 10)) (.fin false 0) = .fin false 0 := by decide +kernel
  have h3 : SDbl.mul (SDbl.div (.fin false 0) (.fin false 1)) (.fin false 1) = .fin false 0 := by decide +kernel
  have h4 : SDbl.mul (SDbl.ofInt (-1)) (.fin false 0) = .fin true 0 := by decide +kernel
  have key : ∀ n : Int, SDbl.mul (SDbl.ofInt n) (SDbl.mul (SDbl.div (SDbl.add (SDbl.mul (SDbl.ofInt 0) (SDbl.ofInt 10)) (SDbl.ofInt 0)) (pow (SDbl.ofInt 0)))
      (pow (SDbl.mul (SDbl.ofInt 1) (SDbl.ofInt 0)))) = SDbl.mul (SDbl.ofInt n) (.fin false 0) := by
    intro n
    rw [h0, h1, h2, hp, h3]
  refine ⟨?_, ?_⟩
  · rw [← h4, ← key]
    rfl
  · rw [← h1, ← key]
    rfl

example : (fun _ : SDbl => SDbl.fin false 1) (.fin false 0) = .fin false 1 := rfl

end Str

namespace Frac

/-- C95, `Fraction`: `operator double` is as without the sign of a zero, and is never the negative zero. -/
theorem C95_fraction {x : Frac} (h : x.Valid) : x.toSigned.forget = x.toDouble ∧ x.toSigned ≠ .fin true 0 := by
  have hd : SDbl.ofInt x.den ≠ .fin true 0 := by
    intro e
    have := congrArg SDbl.forget e
    rw [SDbl.forget_ofInt, Dbl.ofInt_eq (by rw [abs_of_pos h.pos]; have := h.den_le; norm_num [INT_MAX] at this ⊢; omega)] at this
    have := Dbl.fin.inj this
    rw [SDbl.value_zero] at this
    exact absurd (by exact_mod_cast this) h.pos.ne'
  have hf : x.toSigned.forget = x.toDouble := by
    unfold toSigned toDouble
    rw [SDbl.forget_div _ _ hd, SDbl.forget_ofInt, SDbl.forget_ofInt]
  refine ⟨hf, fun e => ?_⟩
  have h0 : x.num = 0 := by
    rw [e] at hf
    rw [toDouble_eq h] at hf
    have := Dbl.fin.inj hf
    rw [SDbl.value_zero] at this
    exact (rnd_val_eq_zero h).1 this.symm
  have hden : x.den = 1 := by
    have := h.coprime
    rw [h0, isCoprime_zero_left, Int.isUnit_iff] at this
    rcases this with e | e
    · exact e
    · exact absurd h.pos (by rw [e]; norm_num)
  unfold toSigned at e
  rw [h0, hden] at e
  revert e
  decide +kernel

/-- `-1/3` meets the hypothesis. -/
example : Valid ⟨-1, 3⟩ := ⟨by norm_num, ⟨-1, 0, by norm_num⟩, by norm_num [INT_MAX], by norm_num [INT_MAX]⟩

end Frac

end Pyincpp
