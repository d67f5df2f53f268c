import Verif.Proof.RbTreePos

/-! # The trees under `std::set` and `std::map`, with comparators that are no order -/

namespace Pyincpp
namespace BT

variable {α κ : Type} {key : α → κ} {c : κ → κ → Bool} {B : Balancer α}

theorem insert_any (hB : B.Keeps) (v : α) (t : BT α) (n : Nat) :
    ∃ t' b d, insert key (Ans c) B v t n = (.ok (t', b), n + d) ∧ d ≤ t.height + 2 ∧
      ((b = false ∧ t' = t) ∨ (b = true ∧ RB t' ∧ ∃ g, g ≤ t.size ∧ t'.elems = t.elems.take g ++ v :: t.elems.drop g)) := by
  obtain ⟨p, g, d, b, e, hp⟩ := uniquePos_ok key c (key v) t n
  cases p with
  | there j => exact ⟨t, false, d, by rw [insert, mb e]; rfl, by omega, Or.inl ⟨rfl, rfl⟩⟩
  | below first y =>
    obtain ⟨t', d', b', e', h1, h2⟩ := link_ok key c hB v hp.1 (n + d)
    refine ⟨t', true, d + d', ?_, by omega, Or.inr ⟨rfl, h2, g, gap_le key c hp.1, h1⟩⟩
    rw [insert, mb e]
    show (link key (Ans c) B v first y t >>= _) _ = _
    rw [mb e', show n + d + d' = n + (d + d') by omega]; rfl

theorem insertHint_any (hB : B.Keeps) (hA : ∀ a b, c a b = true → c b a = false) (pos : Nat) (v : α) (t : BT α) (hpos : pos ≤ t.size) (n : Nat) :
    ∃ t' j d, insertHint key (Ans c) B pos v t n = (.ok (t', j), n + d) ∧ d ≤ t.height + 5 ∧
      (t' = t ∨ (RB t' ∧ ∃ g, g ≤ t.size ∧ t'.elems = t.elems.take g ++ v :: t.elems.drop g)) := by
  obtain ⟨p, g, d, b, bs, ba, e, hp⟩ := hintPos_ok key c hA pos (key v) t hpos n
  cases p with
  | there j => exact ⟨t, j, d, by rw [insertHint, mb e]; rfl, by omega, Or.inl rfl⟩
  | below first y =>
    obtain ⟨t', d', b', e', h1, h2⟩ := link_ok key c hB v hp.1 (n + d)
    refine ⟨t', g, d + d', ?_, by omega, Or.inr ⟨h2, g, gap_le key c hp.1, h1⟩⟩
    rw [insertHint, mb e]
    show link key (Ans c) B v first y t _ = _
    rw [e', show n + d + d' = n + (d + d') by omega]

theorem insertRange_any (hB : B.Keeps) (hA : ∀ a b, c a b = true → c b a = false) : ∀ (xs : List α) (t : BT α) (n : Nat),
    ∃ t' d ys, insertRange key (Ans c) B xs t n = (.ok t', n + d) ∧ ys.Sublist xs ∧ t'.elems.Perm (t.elems ++ ys)
  | [], t, n => ⟨t, 0, [], rfl, List.Sublist.refl _, by simp⟩
  | x :: xs, t, n => by
    obtain ⟨t1, j, d, e, -, h⟩ := insertHint_any (key := key) hB hA t.size x t (le_refl _) n
    obtain ⟨t2, d', ys, e', hs, hp⟩ := insertRange_any hB hA xs t1 (n + d)
    have e2 : insertRange key (Ans c) B (x :: xs) t n = (.ok t2, n + (d + d')) := by
      rw [insertRange, mb e]
      show insertRange key (Ans c) B xs t1 _ = _
      rw [e', show n + d + d' = n + (d + d') by omega]
    rcases h with h | ⟨-, g, hg, h⟩
    · subst h
      exact ⟨t2, d + d', ys, e2, List.Sublist.cons _ hs, hp⟩
    · refine ⟨t2, d + d', x :: ys, e2, List.Sublist.cons_cons _ hs, hp.trans ?_⟩
      have q : t1.elems.Perm (x :: t.elems) := by
        rw [h]
        refine List.perm_middle.trans ?_
        rw [List.take_append_drop]
      refine (q.append_right ys).trans ?_
      simpa using (List.perm_middle (l₁ := t.elems) (l₂ := ys) (a := x)).symm

end BT
end Pyincpp
