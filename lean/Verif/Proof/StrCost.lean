import Verif.Model.StrCost
import Verif.Proof.StrFind

/-! # What searching costs: lemmas -/

namespace Pyincpp
open Lst
namespace Str

/-! ## The functions without their counts -/

theorem searchC_fst (p s : List UInt8) : (searchC p s).1 = search p s := by
  induction s with
  | nil => rfl
  | cons c cs ih =>
    rw [searchC, search]
    split
    · next h => rw [List.isEmpty_iff.mp h]; rfl
    · next h =>
      split
      · next hl =>
        have := search_spec p (c :: cs)
        cases e : search p (c :: cs) with
        | none => rw [search] at e; exact e.symm
        | some i => rw [e] at this; have := this.1.bound; omega
      · split
        · next hh =>
          have : p.isPrefixOf (c :: cs) = false := by
            rcases p with _ | ⟨a, p⟩
            · simp at h
            · simp only [List.head?_cons, ne_eq, Option.some.injEq] at hh
              simp [List.isPrefixOf, hh]
          rw [this, if_neg (by simp), ← ih]
        · split
          · rfl
          · rw [← ih]

theorem findC_fst (s p : List UInt8) (start stop : Int) : Prod.fst <$> findC s p start stop = find s p start stop := by
  unfold findC find
  split
  · rfl
  · simp only
    generalize isub (if stop > size s then size s else stop) start = r
    cases r with
    | ok n =>
      simp only [Res.ok_bind]
      generalize view s start n = v
      cases v with
      | ok v =>
        simp only [Res.ok_bind]
        rw [← searchC_fst p v]
        rcases searchC p v with ⟨_ | i, c⟩
        · rfl
        · simp only
          generalize iadd start (wrap32 i) = r
          cases r <;> rfl
      | throw => rfl
      | ub => rfl
      | fuel => rfl
    | throw => rfl
    | ub => rfl
    | fuel => rfl

theorem findC_cases (s p : List UInt8) (start stop : Int) :
    (∃ i c, findC s p start stop = .ok (i, c) ∧ find s p start stop = .ok i) ∨ (∃ m, findC s p start stop = .throw m ∧ find s p start stop = .throw m) ∨
    (∃ k, findC s p start stop = .ub k ∧ find s p start stop = .ub k) ∨ (findC s p start stop = .fuel ∧ find s p start stop = .fuel) := by
  have h := findC_fst s p start stop
  cases e : findC s p start stop with
  | ok r => rw [e] at h; exact .inl ⟨r.1, r.2, rfl, h.symm⟩
  | throw m => rw [e] at h; exact .inr (.inl ⟨m, rfl, h.symm⟩)
  | ub k => rw [e] at h; exact .inr (.inr (.inl ⟨k, rfl, h.symm⟩))
  | fuel => rw [e] at h; exact .inr (.inr (.inr ⟨rfl, h.symm⟩))

theorem countLoopC_fst (s p : List UInt8) : ∀ (k : Nat) (start cnt : Int) (n : Looked),
    Prod.fst <$> countLoopC s p k start cnt n = countLoop s p k start cnt
  | 0, _, _, _ => rfl
  | k + 1, start, cnt, n => by
    rw [countLoopC, countLoop]
    rcases findC_cases s p start INT_MAX with ⟨i, c, e, e'⟩ | ⟨m, e, e'⟩ | ⟨m, e, e'⟩ | ⟨e, e'⟩ <;> rw [e, e']
    · simp only [Res.ok_bind]
      split
      · rfl
      · cases iadd i (size p) with
        | ok a =>
          simp only [Res.ok_bind]
          cases iadd cnt 1 with
          | ok b => exact countLoopC_fst s p k a b _
          | throw => rfl
          | ub => rfl
          | fuel => rfl
        | throw => rfl
        | ub => rfl
        | fuel => rfl
    all_goals rfl

theorem replaceLoopC_fst (s p q : List UInt8) : ∀ (k : Nat) (start : Int) (b : List UInt8) (n : Looked),
    Prod.fst <$> replaceLoopC s p q k start b n = replaceLoop s p q k start b
  | 0, _, _, _ => rfl
  | k + 1, start, b, n => by
    rw [replaceLoopC, replaceLoop]
    rcases findC_cases s p start INT_MAX with ⟨i, c, e, e'⟩ | ⟨m, e, e'⟩ | ⟨m, e, e'⟩ | ⟨e, e'⟩ <;> rw [e, e']
    · simp only [Res.ok_bind]
      split
      · rfl
      · cases isub i start with
        | ok a =>
          simp only [Res.ok_bind]
          cases substr s start a with
          | ok t =>
            simp only [Res.ok_bind]
            cases iadd i (size p) with
            | ok j => exact replaceLoopC_fst s p q k j _ _
            | throw => rfl
            | ub => rfl
            | fuel => rfl
          | throw => rfl
          | ub => rfl
          | fuel => rfl
        | throw => rfl
        | ub => rfl
        | fuel => rfl
    all_goals rfl

theorem splitLoopC_fst (s p : List UInt8) (keep : Bool) : ∀ (k : Nat) (start : Int) (b : List (List UInt8)) (n : Looked),
    Prod.fst <$> splitLoopC s p keep k start b n = splitLoop s p keep k start b
  | 0, _, _, _ => rfl
  | k + 1, start, b, n => by
    rw [splitLoopC, splitLoop]
    rcases findC_cases s p start INT_MAX with ⟨i, c, e, e'⟩ | ⟨m, e, e'⟩ | ⟨m, e, e'⟩ | ⟨e, e'⟩ <;> rw [e, e']
    · simp only [Res.ok_bind]
      split
      · rfl
      · split
        · cases iadd i (size p) with
          | ok j => exact splitLoopC_fst s p keep k j _ _
          | throw => rfl
          | ub => rfl
          | fuel => rfl
        · cases isub i start with
          | ok a =>
            simp only [Res.ok_bind]
            cases substr s start a with
            | ok t =>
              simp only [Res.ok_bind]
              cases Lst.onCopy (Lst.append t) b with
              | ok b' =>
                simp only [Res.ok_bind]
                cases iadd i (size p) with
                | ok j => exact splitLoopC_fst s p keep k j _ _
                | throw => rfl
                | ub => rfl
                | fuel => rfl
              | throw => rfl
              | ub => rfl
              | fuel => rfl
            | throw => rfl
            | ub => rfl
            | fuel => rfl
          | throw => rfl
          | ub => rfl
          | fuel => rfl
    all_goals rfl

theorem countC_fst (k : Nat) (s p : List UInt8) : Prod.fst <$> countC k s p = count k s p := by
  unfold countC count
  split
  · cases iadd (size s) 1 <;> rfl
  · exact countLoopC_fst s p k 0 0 _

theorem replaceC_fst (k : Nat) (s p q : List UInt8) : Prod.fst <$> replaceC k s p q = replace k s p q := by
  unfold replaceC replace
  split
  · rfl
  · rw [← replaceLoopC_fst s p q k 0 [] ⟨0, 0⟩]
    cases replaceLoopC s p q k 0 [] ⟨0, 0⟩ with
    | ok r =>
      rcases r with ⟨⟨a, b⟩, c⟩
      simp only [Res.ok_bind, Res.map_ok]
      cases substr s a (-1) <;> rfl
    | throw => rfl
    | ub => rfl
    | fuel => rfl

theorem splitC_fst (k : Nat) (s p : List UInt8) (keep : Bool) : Prod.fst <$> splitC k s p keep = split k s p keep := by
  unfold splitC split
  split
  · rfl
  · rw [← splitLoopC_fst s p keep k 0 [] ⟨0, 0⟩]
    cases splitLoopC s p keep k 0 [] ⟨0, 0⟩ with
    | ok r =>
      rcases r with ⟨⟨a, b⟩, c⟩
      simp only [Res.ok_bind, Res.map_ok]
      split
      · cases substr s a (-1) with
        | ok t => simp only [Res.ok_bind]; cases Lst.onCopy (Lst.append t) b <;> rfl
        | throw => rfl
        | ub => rfl
        | fuel => rfl
      · rfl
    | throw => rfl
    | ub => rfl
    | fuel => rfl

/-! ## One search -/

theorem compareC_le (p s : List UInt8) : compareC p s ≤ p.length := by
  induction p generalizing s with
  | nil => simp [compareC]
  | cons a p ih =>
    rcases s with _ | ⟨b, s⟩
    · simp [compareC]
    · rw [compareC]
      have := ih s
      split <;> simp only [List.length_cons] <;> omega

theorem compareC_prefix {p s : List UInt8} (h : p <+: s) : compareC p s = p.length := by
  induction p generalizing s with
  | nil => simp [compareC]
  | cons a p ih =>
    rcases s with _ | ⟨b, s⟩
    · simp at h
    · obtain ⟨rfl, h'⟩ := List.cons_prefix_cons.mp h
      rw [compareC, if_pos rfl, ih h', List.length_cons]; omega

/-- The characters passed and compared by one search. -/
theorem searchC_looked (a : UInt8) (p s : List UInt8) :
    match searchC (a :: p) s with
    | (some i, c) => c.passed = i + 1 ∧ c.compared ≤ (p.length + 1) * (s.take (i + 1)).count a ∧ p.length + 1 ≤ c.compared
    | (none, c) => c.passed = s.length - p.length ∧ c.compared ≤ (p.length + 1) * s.count a := by
  induction s with
  | nil => simp [searchC]
  | cons b s ih =>
    rw [searchC]
    rw [if_neg (by simp)]
    by_cases hl : (b :: s).length < (a :: p).length
    · rw [if_pos hl]
      simp only [List.length_cons] at hl ⊢
      exact ⟨by omega, by omega⟩
    · rw [if_neg hl]
      simp only [List.length_cons] at hl
      by_cases hh : (a :: p).head? ≠ some b
      · rw [if_pos hh]
        have hab : ¬ b = a := by simpa [eq_comm] using hh
        rcases e : searchC (a :: p) s with ⟨_ | i, c⟩
        · rw [e] at ih
          simp only [Option.map_none, List.length_cons]
          refine ⟨?_, ?_⟩
          · show 1 + c.passed = _
            rw [ih.1]; omega
          · show 0 + c.compared ≤ _
            rw [List.count_cons_of_ne hab]; simpa using ih.2
        · rw [e] at ih
          simp only [Option.map_some]
          refine ⟨?_, ?_, ?_⟩
          · show 1 + c.passed = _
            rw [ih.1]; omega
          · show 0 + c.compared ≤ _
            rw [List.take_succ_cons, List.count_cons_of_ne hab]; simpa using ih.2.1
          · show _ ≤ 0 + c.compared
            simpa using ih.2.2
      · rw [if_neg hh]
        obtain rfl : a = b := by simpa using hh
        have hle := compareC_le (a :: p) (a :: s)
        simp only [List.length_cons] at hle
        by_cases hpre : (a :: p).isPrefixOf (a :: s) = true
        · rw [if_pos hpre]
          have := compareC_prefix (List.isPrefixOf_iff_prefix.mp hpre)
          simp only [List.length_cons] at this
          refine ⟨rfl, ?_, ?_⟩
          · simp only [this]; simp
          · simp only [this]; omega
        · rw [if_neg hpre]
          rcases e : searchC (a :: p) s with ⟨_ | i, c⟩
          · rw [e] at ih
            simp only [Option.map_none, List.length_cons]
            refine ⟨?_, ?_⟩
            · show 1 + c.passed = _
              rw [ih.1]; omega
            · show compareC (a :: p) (a :: s) + c.compared ≤ _
              rw [List.count_cons_self, Nat.mul_add]; omega
          · rw [e] at ih
            simp only [Option.map_some]
            refine ⟨?_, ?_, ?_⟩
            · show 1 + c.passed = _
              rw [ih.1]; omega
            · show compareC (a :: p) (a :: s) + c.compared ≤ _
              rw [List.take_succ_cons, List.count_cons_self, Nat.mul_add]; omega
            · show _ ≤ compareC (a :: p) (a :: s) + c.compared
              omega

/-! ## The loops -/

/-- `findC` from the end of a prefix to the end of the string. -/
theorem findC_from {d t p : List UInt8} (hs : (d ++ t).length ≤ maxLen) :
    findC (d ++ t) p d.length = match searchC p t with | (none, c) => .ok (-1, c) | (some i, c) => .ok (d.length + i, c) := by
  have hlen : (d ++ t).length = d.length + t.length := by simp
  have hs' := hs
  unfold maxLen at hs'
  unfold findC
  rw [size_eq' hs, if_neg (by omega)]
  have hm : (if INT_MAX > ((d ++ t).length : Int) then ((d ++ t).length : Int) else INT_MAX) = (d ++ t).length := by
    unfold INT_MAX; split <;> omega
  simp only [hm]
  rw [isub_ok (by rw [isInt_iff]; omega), Res.ok_bind]
  have hv : view (d ++ t) d.length (((d ++ t).length : Int) - d.length) = .ok t := by
    unfold view
    rw [if_neg (by omega), if_neg (by omega), Int.toNat_natCast, List.drop_left, List.take_of_length_le (by omega)]
  rw [hv, Res.ok_bind]
  have hsp := search_spec p t
  rw [← searchC_fst] at hsp
  rcases e : searchC p t with ⟨_ | i, c⟩
  · rfl
  · rw [e] at hsp
    have hb := hsp.1.bound
    simp only
    rw [wrap32_eq (by rw [isInt_iff]; omega), iadd_ok (by rw [isInt_iff]; omega)]; rfl

/-- What the searches of a left-to-right scan look at in all. -/
inductive ScanCost (p : List UInt8) : List UInt8 → Looked → Prop
  | done (t c) : searchC p t = (none, c) → ScanCost p t c
  | step (a t c c') : searchC p (a ++ p ++ t) = (some a.length, c) → ScanCost p t c' → ScanCost p (a ++ p ++ t) (c + c')

theorem looked_zero (c : Looked) : (⟨0, 0⟩ : Looked) + c = c := by
  rcases c with ⟨a, b⟩
  show Looked.mk (0 + a) (0 + b) = _
  simp

theorem looked_assoc (a b c : Looked) : a + b + c = a + (b + c) := by
  show Looked.mk _ _ = Looked.mk _ _
  congr 1
  · exact Nat.add_assoc _ _ _
  · exact Nat.add_assoc _ _ _

/-- A search that finds cuts the string. -/
theorem searchC_cut {p t : List UInt8} {i : Nat} {c : Looked} (h : searchC p t = (some i, c)) : ∃ a t', t = a ++ p ++ t' ∧ a.length = i := by
  have := search_spec p t
  rw [← searchC_fst, h] at this
  obtain ⟨a, b, e, hl⟩ := this.1
  exact ⟨a, b, e, hl⟩

theorem countLoopC_cost {p : List UInt8} : ∀ (k : Nat) (d t : List UInt8) (cnt : Int) (n : Looked) (r : Int) (n' : Looked),
    (d ++ t).length ≤ maxLen → countLoopC (d ++ t) p k d.length cnt n = .ok (r, n') → ∃ c, ScanCost p t c ∧ n' = n + c := by
  intro k
  induction k with
  | zero => intro _ _ _ _ _ _ _ h; simp [countLoopC] at h
  | succ k ih =>
    intro d t cnt n r n' hs h
    rw [countLoopC, findC_from hs] at h
    rcases e : searchC p t with ⟨_ | i, c⟩
    · rw [e] at h
      simp only [Res.ok_bind, if_true, Res.pure_eq, Res.ok.injEq, Prod.mk.injEq] at h
      exact ⟨c, .done t c e, h.2.symm⟩
    · obtain ⟨a, t', rfl, rfl⟩ := searchC_cut e
      rw [e] at h
      simp only [Res.ok_bind] at h
      rw [if_neg (by omega)] at h
      obtain ⟨x, hx, h⟩ := Res.bind_eq_ok.mp h
      obtain ⟨y, hy, h⟩ := Res.bind_eq_ok.mp h
      have hlen : (d ++ (a ++ p ++ t')).length = d.length + (a.length + p.length + t'.length) := by simp; omega
      have e1 : d ++ (a ++ p ++ t') = (d ++ a ++ p) ++ t' := by simp [List.append_assoc]
      have hsz : size p = p.length := size_eq' (by omega)
      rw [hsz, iadd_ok (by rw [isInt_iff]; unfold maxLen at hs; omega)] at hx
      injection hx with hx
      rw [show x = (((d ++ a ++ p).length : Nat) : Int) by rw [← hx]; simp; omega, e1] at h
      obtain ⟨c', h1, rfl⟩ := ih _ t' _ _ _ _ (by rw [← e1]; exact hs) h
      exact ⟨c + c', .step a t' c c' e h1, looked_assoc _ _ _⟩

theorem replaceLoopC_cost {p q : List UInt8} : ∀ (k : Nat) (d t b : List UInt8) (n : Looked) (r : Int × List UInt8) (n' : Looked),
    (d ++ t).length ≤ maxLen → replaceLoopC (d ++ t) p q k d.length b n = .ok (r, n') → ∃ c, ScanCost p t c ∧ n' = n + c := by
  intro k
  induction k with
  | zero => intro _ _ _ _ _ _ _ h; simp [replaceLoopC] at h
  | succ k ih =>
    intro d t b n r n' hs h
    rw [replaceLoopC, findC_from hs] at h
    rcases e : searchC p t with ⟨_ | i, c⟩
    · rw [e] at h
      simp only [Res.ok_bind, if_true, Res.pure_eq, Res.ok.injEq, Prod.mk.injEq] at h
      exact ⟨c, .done t c e, h.2.symm⟩
    · obtain ⟨a, t', rfl, rfl⟩ := searchC_cut e
      rw [e] at h
      simp only [Res.ok_bind] at h
      rw [if_neg (by omega)] at h
      obtain ⟨_, -, h⟩ := Res.bind_eq_ok.mp h
      obtain ⟨_, -, h⟩ := Res.bind_eq_ok.mp h
      obtain ⟨x, hx, h⟩ := Res.bind_eq_ok.mp h
      have hlen : (d ++ (a ++ p ++ t')).length = d.length + (a.length + p.length + t'.length) := by simp; omega
      have e1 : d ++ (a ++ p ++ t') = (d ++ a ++ p) ++ t' := by simp [List.append_assoc]
      have hsz : size p = p.length := size_eq' (by omega)
      rw [hsz, iadd_ok (by rw [isInt_iff]; unfold maxLen at hs; omega)] at hx
      injection hx with hx
      rw [show x = (((d ++ a ++ p).length : Nat) : Int) by rw [← hx]; simp; omega, e1] at h
      obtain ⟨c', h1, rfl⟩ := ih _ t' _ _ _ _ (by rw [← e1]; exact hs) h
      exact ⟨c + c', .step a t' c c' e h1, looked_assoc _ _ _⟩

theorem splitLoopC_cost {p : List UInt8} {keep : Bool} : ∀ (k : Nat) (d t : List UInt8) (b : List (List UInt8)) (n : Looked)
    (r : Int × List (List UInt8)) (n' : Looked),
    (d ++ t).length ≤ maxLen → splitLoopC (d ++ t) p keep k d.length b n = .ok (r, n') → ∃ c, ScanCost p t c ∧ n' = n + c := by
  intro k
  induction k with
  | zero => intro _ _ _ _ _ _ _ h; simp [splitLoopC] at h
  | succ k ih =>
    intro d t b n r n' hs h
    rw [splitLoopC, findC_from hs] at h
    rcases e : searchC p t with ⟨_ | i, c⟩
    · rw [e] at h
      simp only [Res.ok_bind, if_true, Res.pure_eq, Res.ok.injEq, Prod.mk.injEq] at h
      exact ⟨c, .done t c e, h.2.symm⟩
    · obtain ⟨a, t', rfl, rfl⟩ := searchC_cut e
      rw [e] at h
      simp only [Res.ok_bind] at h
      rw [if_neg (by omega)] at h
      have hlen : (d ++ (a ++ p ++ t')).length = d.length + (a.length + p.length + t'.length) := by simp; omega
      have e1 : d ++ (a ++ p ++ t') = (d ++ a ++ p) ++ t' := by simp [List.append_assoc]
      have hsz : size p = p.length := size_eq' (by omega)
      have hx : iadd ((d.length : Int) + a.length) (size p) = .ok (((d ++ a ++ p).length : Nat) : Int) := by
        rw [hsz, iadd_ok (by rw [isInt_iff]; unfold maxLen at hs; omega)]; simp; omega
      split at h
      · rw [hx, Res.ok_bind, e1] at h
        obtain ⟨c', h1, rfl⟩ := ih _ t' _ _ _ _ (by rw [← e1]; exact hs) h
        exact ⟨c + c', .step a t' c c' e h1, looked_assoc _ _ _⟩
      · obtain ⟨_, -, h⟩ := Res.bind_eq_ok.mp h
        obtain ⟨_, -, h⟩ := Res.bind_eq_ok.mp h
        obtain ⟨_, -, h⟩ := Res.bind_eq_ok.mp h
        rw [hx, Res.ok_bind, e1] at h
        obtain ⟨c', h1, rfl⟩ := ih _ t' _ _ _ _ (by rw [← e1]; exact hs) h
        exact ⟨c + c', .step a t' c c' e h1, looked_assoc _ _ _⟩

end Str
end Pyincpp
