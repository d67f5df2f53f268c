import Verif.Proof.StrCost
import Verif.Props.StrSearch
import Mathlib.Tactic.Ring
import Mathlib.Tactic.Linarith

/-! # C115: what searching in a string costs -/

namespace Pyincpp
open Lst

/-- The counted functions are those of Model/Str.lean. -/
theorem C115_same (k : Nat) (s p q : List UInt8) (start stop : Int) (keep : Bool) :
    Prod.fst <$> Str.findC s p start stop = Str.find s p start stop ∧ Prod.fst <$> Str.countC k s p = Str.count k s p ∧
    Prod.fst <$> Str.replaceC k s p q = Str.replace k s p q ∧ Prod.fst <$> Str.splitC k s p keep = Str.split k s p keep :=
  ⟨Str.findC_fst s p start stop, Str.countC_fst k s p, Str.replaceC_fst k s p q, Str.splitC_fst k s p keep⟩

/-- **C115** `find` passes the characters before the occurrence, and compares the whole pattern at most at the places that have its first
character. -/
theorem C115_find_partial (s : List UInt8) (hs : s.length ≤ maxLen) (a : UInt8) (p : List UInt8) :
    (∃ (i : Nat) (c : Looked), Str.findC s (a :: p) = .ok (i, c) ∧ FirstAt s (a :: p) i ∧ c.passed = i + 1 ∧
      (a :: p).length ≤ c.compared ∧ c.compared ≤ (a :: p).length * (s.take (i + 1)).count a) ∨
    (∃ c : Looked, Str.findC s (a :: p) = .ok (-1, c) ∧ (∀ i, ¬ OccursAt s (a :: p) i) ∧ c.passed = s.length + 1 - (a :: p).length ∧
      c.compared ≤ (a :: p).length * s.count a) := by
  have h := Str.findC_from (d := []) (t := s) (p := a :: p) (by simpa using hs)
  have h1 := Str.searchC_looked a p s
  have h2 := search_spec (a :: p) s
  rw [← Str.searchC_fst] at h2
  simp only [List.nil_append, List.length_nil, Nat.cast_zero] at h
  rcases e : Str.searchC (a :: p) s with ⟨_ | i, c⟩
  · rw [e] at h h1 h2
    exact .inr ⟨c, h, h2, by rw [h1.1, List.length_cons]; omega, by simpa using h1.2⟩
  · rw [e] at h h1 h2
    exact .inl ⟨i, c, by simpa using h, h2, h1.1, by simpa using h1.2.2, by simpa using h1.2.1⟩

/-- "abcabd" is searched for "abd": four places, and two comparisons of three characters. -/
example : Str.findC [97, 98, 99, 97, 98, 100] [97, 98, 100] = .ok (3, ⟨4, 6⟩) := by decide +kernel

/-- The characters passed by a scan with these pieces: up to the first character of every occurrence; then up to the last place that has room. -/
def passedOf (m : Nat) : List (List UInt8) → Nat
  | [] => 0
  | [a] => a.length + 1 - m
  | a :: ps => a.length + 1 + passedOf m ps

theorem scan_cost {a : UInt8} {p s : List UInt8} {ps : List (List UInt8)} (h : Scan (a :: p) s ps) :
    ∀ c, Str.ScanCost (a :: p) s c → c.passed = passedOf (a :: p).length ps ∧ (a :: p).length * (ps.length - 1) ≤ c.compared ∧
      c.compared ≤ (a :: p).length * s.count a := by
  induction h with
  | done t hn =>
    intro c hc
    have h1 := Str.searchC_looked a p t
    cases hc with
    | done _ _ e => rw [e] at h1; exact ⟨by rw [h1.1, passedOf, List.length_cons]; omega, by simp, by simpa using h1.2⟩
    | step b t c c' e _ => exact absurd ⟨b, t, rfl, rfl⟩ (hn b.length)
  | step b t ps hf hsc ih =>
    intro c hc
    have key : ∀ (b' t' : List UInt8) (c c' : Looked), b ++ (a :: p) ++ t = b' ++ (a :: p) ++ t' →
        Str.searchC (a :: p) (b' ++ (a :: p) ++ t') = (some b'.length, c) → Str.ScanCost (a :: p) t' c' →
        (c + c').passed = passedOf (a :: p).length (b :: ps) ∧ (a :: p).length * ((b :: ps).length - 1) ≤ (c + c').compared ∧
          (c + c').compared ≤ (a :: p).length * (b ++ (a :: p) ++ t).count a := by
      intro b' t' c c' he e hc'
      have hl : b'.length = b.length := by
        have := search_spec (a :: p) (b ++ (a :: p) ++ t)
        rw [← Str.searchC_fst, he, e, ← he] at this
        exact this.unique hf
      obtain ⟨h1, h2⟩ := List.append_inj (by simpa [List.append_assoc] using he) hl.symm
      obtain rfl := h1
      have ht : t = t' := by simpa using h2
      obtain rfl := ht
      obtain ⟨i1, i2, i3⟩ := ih c' hc'
      have h1 := Str.searchC_looked a p (b ++ (a :: p) ++ t)
      rw [e] at h1
      obtain ⟨h1, h2, h3⟩ := h1
      have hne := hsc.ne_nil
      refine ⟨?_, ?_, ?_⟩
      · show c.passed + c'.passed = _
        rcases ps with _ | ⟨q, ps⟩
        · exact absurd rfl hne
        · rw [h1, i1]; rfl
      · show _ ≤ c.compared + c'.compared
        rcases ps with _ | ⟨q, ps⟩
        · exact absurd rfl hne
        · simp only [List.length_cons, Nat.add_sub_cancel] at i2 ⊢
          rw [Nat.mul_succ]; omega
      · show c.compared + c'.compared ≤ _
        have e1 : (b ++ (a :: p) ++ t).take (b.length + 1) = b ++ [a] := by
          rw [show b ++ (a :: p) ++ t = (b ++ [a]) ++ (p ++ t) by simp, List.take_left' (by simp)]
        rw [e1] at h2
        have e2 : (b ++ (a :: p) ++ t).count a = (b ++ [a]).count a + p.count a + t.count a := by
          simp only [List.count_append, List.count_cons_self, List.count_nil]; omega
        rw [e2, Nat.mul_add, Nat.mul_add]
        simp only [List.length_cons] at i3 ⊢
        omega
    generalize hg : b ++ (a :: p) ++ t = g at hc
    cases hc with
    | done _ _ e =>
      have := search_spec (a :: p) g
      rw [← Str.searchC_fst, e] at this
      exact absurd ⟨b, t, hg.symm, rfl⟩ (this b.length)
    | step b' t' c c' e hc' => rw [← hg]; exact key b' t' c c' hg e hc'

/-- **C115** `count`, `replace` and `split` together pass the string once, and compare the whole pattern at most at the places that have its
first character. -/
theorem C115_scan_partial (s : List UInt8) (hs : s.length ≤ maxLen) (a : UInt8) (p : List UInt8) (ps : List (List UInt8)) (h : Scan (a :: p) s ps)
    (k : Nat) (c : Looked)
    (hc : (∃ r, Str.countC k s (a :: p) = .ok (r, c)) ∨ (∃ q r, Str.replaceC k s (a :: p) q = .ok (r, c)) ∨
      (∃ keep r, Str.splitC k s (a :: p) keep = .ok (r, c))) :
    c.passed = passedOf (a :: p).length ps ∧ (a :: p).length * (ps.length - 1) ≤ c.compared ∧ c.compared ≤ (a :: p).length * s.count a := by
  apply scan_cost h
  rcases hc with ⟨r, hc⟩ | ⟨q, r, hc⟩ | ⟨keep, r, hc⟩
  · unfold Str.countC at hc
    rw [if_neg (by simp [Str.isEmpty])] at hc
    obtain ⟨c', h1, h2⟩ := Str.countLoopC_cost k [] s 0 _ r c (by simpa using hs) hc
    rw [Str.looked_zero] at h2
    rw [h2]; exact h1
  · unfold Str.replaceC at hc
    rw [if_neg (by simp [Str.isEmpty])] at hc
    obtain ⟨x, hx, hc⟩ := Res.bind_eq_ok.mp hc
    obtain ⟨y, hy, hc⟩ := Res.bind_eq_ok.mp hc
    injection hc with hc
    obtain ⟨c', h1, h2⟩ := Str.replaceLoopC_cost k [] s [] _ x.1 x.2 (by simpa using hs) hx
    rw [Str.looked_zero] at h2
    rw [show c = x.2 from (congrArg Prod.snd hc).symm, h2]; exact h1
  · unfold Str.splitC at hc
    rw [if_neg (by simp [Str.isEmpty])] at hc
    obtain ⟨x, hx, hc⟩ := Res.bind_eq_ok.mp hc
    obtain ⟨c', h1, h2⟩ := Str.splitLoopC_cost k [] s [] _ x.1 x.2 (by simpa using hs) hx
    rw [Str.looked_zero] at h2
    have : c = x.2 := by
      rcases x with ⟨⟨x1, x2⟩, x3⟩
      dsimp only at hc
      by_cases hk : (keep || x1 != Str.size s) = true
      · rw [if_pos hk] at hc
        obtain ⟨y, hy, hc⟩ := Res.bind_eq_ok.mp hc
        obtain ⟨z, hz, hc⟩ := Res.bind_eq_ok.mp hc
        rw [Res.pure_eq, Res.ok.injEq] at hc
        exact (congrArg Prod.snd hc).symm
      · rw [if_neg hk] at hc
        injection hc with hc
        exact (congrArg Prod.snd hc).symm
    rw [this, h2]; exact h1

theorem fst_ok {α : Type} {x : Res (α × Looked)} {a : α} (h : Prod.fst <$> x = .ok a) : ∃ c, x = .ok (a, c) := by
  cases x with
  | ok r =>
    rw [Res.map_ok, Res.ok.injEq] at h
    exact ⟨r.2, by rw [← h]⟩
  | throw => exact nomatch h
  | ub => exact nomatch h
  | fuel => exact nomatch h

/-- **C115** `count` and `replace` end with such a cost, for every string and pattern. -/
theorem C115_ends (s : List UInt8) (hs : s.length ≤ maxLen) (a : UInt8) (p q : List UInt8) (ps : List (List UInt8)) (h : Scan (a :: p) s ps) :
    ∃ K, ∀ k ≥ K, ∃ c d, Str.countC k s (a :: p) = .ok ((ps.length : Int) - 1, c) ∧ Str.replaceC k s (a :: p) q = .ok (glue q ps, d) ∧
      c.passed = passedOf (a :: p).length ps ∧ d.passed = passedOf (a :: p).length ps ∧
      c.compared ≤ (a :: p).length * s.count a ∧ d.compared ≤ (a :: p).length * s.count a := by
  obtain ⟨K1, h1⟩ := C26_count s (a :: p) hs (by simp) ps h
  obtain ⟨-, K2, h2⟩ := C26_replace s (a :: p) q hs (by simp) ps h
  refine ⟨max K1 K2, fun k hk => ?_⟩
  have e1 : Str.count k s (a :: p) = _ := h1 k (by omega)
  have e2 : Str.replace k s (a :: p) q = _ := h2 k (by omega)
  obtain ⟨-, f1, f2, -⟩ := C115_same k s (a :: p) q 0 0 true
  rw [e1] at f1
  rw [e2] at f2
  obtain ⟨c, g1⟩ := fst_ok f1
  obtain ⟨d, g2⟩ := fst_ok f2
  have i1 := C115_scan_partial s hs a p ps h k c (.inl ⟨_, g1⟩)
  have i2 := C115_scan_partial s hs a p ps h k d (.inr (.inl ⟨q, _, g2⟩))
  exact ⟨c, d, g1, g2, i1.1, i2.1, i1.2.2, i2.2.2⟩

/-- **C115** All the searches of `count`, `replace` or `split` pass fewer characters than the string has, or as many. -/
theorem C115_passed (s : List UInt8) (p : List UInt8) (hp : p ≠ []) (ps : List (List UInt8)) (h : Scan p s ps) : passedOf p.length ps ≤ s.length := by
  have hl := List.length_pos_iff.2 hp
  induction h with
  | done t _ => rw [passedOf]; omega
  | step a t ps _ hsc ih =>
    rcases ps with _ | ⟨q, ps⟩
    · exact absurd rfl hsc.ne_nil
    · show a.length + 1 + passedOf p.length (q :: ps) ≤ _
      simp only [List.length_append]; omega

/-- "-a--a" split at "-": five characters passed, and the separator compared three times. -/
example : Str.splitC 9 [45, 97, 45, 45, 97] [45] true = .ok ([[], [97], [], [97]], ⟨5, 3⟩) := by decide +kernel

example : Str.countC 9 [97, 97, 97, 97, 97] [97, 97] = .ok (2, ⟨2, 4⟩) := by decide +kernel

example : Str.replaceC 9 [97, 97, 98, 97, 97] [97, 98] [99] = .ok ([97, 99, 97, 97], ⟨3, 6⟩) := by decide +kernel

theorem compareC_ones {a b : UInt8} (h : b ≠ a) : ∀ (j n : Nat), j < n → Str.compareC (List.replicate j a ++ [b]) (List.replicate n a) = j + 1
  | 0, n + 1, _ => by simp [Str.compareC, List.replicate_succ, h]
  | j + 1, n + 1, hn => by
    rw [List.replicate_succ, List.replicate_succ, List.cons_append, Str.compareC, if_pos rfl, compareC_ones h j n (by omega)]; omega

theorem searchC_ones {a b : UInt8} (h : b ≠ a) (j n : Nat) :
    Str.searchC (List.replicate (j + 1) a ++ [b]) (List.replicate n a) = (none, ⟨n - (j + 1), (n - (j + 1)) * (j + 2)⟩) := by
  induction n with
  | zero => simp [Str.searchC]
  | succ n ih =>
    have hp : List.replicate (j + 1) a ++ [b] = a :: (List.replicate j a ++ [b]) := by rw [List.replicate_succ]; rfl
    rw [List.replicate_succ (n := n), Str.searchC, if_neg (by simp)]
    by_cases hl : (a :: List.replicate n a).length < (List.replicate (j + 1) a ++ [b]).length
    · rw [if_pos hl]
      simp only [List.length_cons, List.length_replicate, List.length_append, List.length_nil] at hl
      rw [show n + 1 - (j + 1) = 0 by omega]; simp
    · rw [if_neg hl, if_neg (by rw [hp]; simp), if_neg]
      · simp only [List.length_cons, List.length_replicate, List.length_append, List.length_nil] at hl
        rw [ih, ← List.replicate_succ, compareC_ones h (j + 1) (n + 1) (by omega)]
        have : n + 1 - (j + 1) = n - (j + 1) + 1 := by omega
        rw [this]
        show (none, Looked.mk (1 + (n - (j + 1))) (j + 1 + 1 + (n - (j + 1)) * (j + 2))) = _
        rw [Nat.add_comm 1, Nat.succ_mul, Nat.add_comm ((n - (j + 1)) * (j + 2))]
      · intro hpre
        have := (List.isPrefixOf_iff_prefix.mp hpre).subset (show b ∈ _ by simp)
        rw [← List.replicate_succ] at this
        exact h (List.mem_replicate.mp this).2

/-- **C115** The cost is not proportional to the lengths: `a…ab` in `a…a`. -/
theorem C115_linear_not (C : Nat) (hC : C ≤ 100000000) : ∃ (s p : List UInt8) (c : Looked), Str.findC s p = .ok (-1, c) ∧
    C * (s.length + p.length) < c.compared ∧ s.length ≤ maxLen := by
  refine ⟨List.replicate (6 * C + 4) 97, List.replicate (3 * C + 1 + 1) 97 ++ [98], ⟨3 * C + 2, (3 * C + 2) * (3 * C + 3)⟩, ?_, ?_, ?_⟩
  · have h := Str.findC_from (d := []) (t := List.replicate (6 * C + 4) (97 : UInt8)) (p := List.replicate (3 * C + 1 + 1) 97 ++ [98])
      (by simp [maxLen]; omega)
    rw [searchC_ones (by decide), show 6 * C + 4 - (3 * C + 1 + 1) = 3 * C + 2 by omega, show 3 * C + 1 + 2 = 3 * C + 3 by omega] at h
    simpa using h
  · simp only [List.length_replicate, List.length_append, List.length_singleton]
    nlinarith
  · simp [maxLen]; omega

end Pyincpp
