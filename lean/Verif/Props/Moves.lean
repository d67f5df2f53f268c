import Verif.Model.Moves
import Verif.Proof.ListLoops
import Mathlib.Data.List.Rotate

/-! # C113: rearranging a list whose elements are changed by moving them -/

namespace Pyincpp
namespace Moves

variable {α : Type} (left : α → α)

theorem take_ne {v : List α} {k : Nat} (h0 : 0 < k) (h : k ≤ v.length) : v.take k ≠ [] := by
  intro e; have := congrArg List.length e; rw [List.length_take, List.length_nil] at this; omega

theorem drop_ne {v : List α} {k : Nat} (h : k < v.length) : v.drop k ≠ [] := by
  intro e; have := congrArg List.length e; rw [List.length_drop, List.length_nil] at this; omega

theorem get_mid (A B : List α) (x : α) : vget (A ++ x :: B) A.length = .ok x := by simp [vget]

theorem set_mid (A B : List α) (x y : α) : vset (A ++ x :: B) A.length y = .ok (A ++ y :: B) := by simp [vset]

theorem get_mid' {v A B : List α} {x : α} {i : Nat} (e : v = A ++ x :: B) (h : i = A.length) : vget v i = .ok x := by
  subst e h; exact get_mid A B x

theorem set_mid' {v A B : List α} {x : α} (y : α) {i : Nat} (e : v = A ++ x :: B) (h : i = A.length) : vset v i y = .ok (A ++ y :: B) := by
  subst e h; exact set_mid A B x y

theorem moveTo_down (A M B : List α) (g y : α) :
    moveTo left (A ++ g :: (M ++ y :: B)) A.length (A.length + 1 + M.length) = .ok (A ++ y :: (M ++ left y :: B)) := by
  have e1 : A ++ g :: (M ++ y :: B) = (A ++ g :: M) ++ y :: B := by simp
  have l1 : A.length + 1 + M.length = (A ++ g :: M).length := by simp; omega
  have l2 : A.length + 1 + M.length = (A ++ y :: M).length := by simp; omega
  rw [moveTo, get_mid' e1 l1]
  simp only [Res.ok_bind, set_mid]
  rw [set_mid' (x := y) (B := B) (left y) (by simp) l2]
  simp

theorem moveTo_up (A B : List α) (g x : α) : moveTo left (A ++ x :: g :: B) (A.length + 1) A.length = .ok (A ++ left x :: x :: B) := by
  rw [moveTo, get_mid]
  simp only [Res.ok_bind]
  rw [set_mid' (A := A ++ [x]) (x := g) (B := B) x (by simp) (by simp)]
  simp only [Res.ok_bind]
  rw [set_mid' (A := A) (x := x) (B := x :: B) (left x) (by simp) rfl]

theorem swap_mid (A M B : List α) (x y : α) :
    swap left (A ++ x :: (M ++ y :: B)) A.length (A.length + 1 + M.length) = .ok (A ++ y :: (M ++ x :: B)) := by
  have l2 : A.length + 1 + M.length = (A ++ y :: M).length := by simp; omega
  rw [swap, get_mid]
  simp only [Res.ok_bind, set_mid, moveTo_down]
  rw [set_mid' (x := left y) (B := B) x (by simp) l2]
  simp

/-! ## `std::reverse` -/

theorem reverseLoop_mid (f : Nat) : ∀ (A M B : List α), M.length < f →
    reverseLoop left f A.length (A.length + M.length) (A ++ (M ++ B)) = .ok (A ++ (M.reverse ++ B)) := by
  induction f using Nat.strong_induction_on with
  | _ f ih =>
    intro A M B hf
    obtain _ | f := f
    · omega
    rw [reverseLoop]
    rcases M with _ | ⟨x, M⟩
    · rw [if_neg (by simp)]; simp
    rcases List.eq_nil_or_concat M with rfl | ⟨M, y, rfl⟩
    · rw [if_neg (by simp)]; simp
    rw [if_pos (by simp)]
    have e : A ++ (x :: M.concat y ++ B) = A ++ x :: (M ++ y :: B) := by simp
    have l : A.length + (x :: M.concat y).length - 1 = A.length + 1 + M.length := by simp; omega
    rw [e, l, swap_mid]
    simp only [Res.ok_bind]
    have h := ih f (by omega) (A ++ [y]) M (x :: B) (by simp at hf; omega)
    have e2 : (A ++ [y]) ++ (M ++ x :: B) = A ++ y :: (M ++ x :: B) := by simp
    rw [e2, show (A ++ [y]).length = A.length + 1 by simp] at h
    rw [h]; simp

/-- **C113** `reverse`: whatever moving an element leaves of it, the list is reversed. -/
theorem C113_reverse (v : List α) : reverseLoop left (v.length + 1) 0 v.length v = .ok v.reverse ∧ Lst.reverse v = (.ok (), v.reverse) := by
  refine ⟨?_, rfl⟩
  have := reverseLoop_mid left (v.length + 1) [] v [] (by omega)
  simpa using this

/-! ## `erase` -/

theorem shiftDown_mid : ∀ (Y A G B : List α), G ≠ [] →
    ∃ G', G'.length = G.length ∧ shiftDown left A.length (A.length + G.length) Y.length (A ++ (G ++ (Y ++ B))) = .ok (A ++ (Y ++ (G' ++ B)))
  | [], A, G, B, _ => ⟨G, rfl, by simp [shiftDown]⟩
  | y :: Y, A, g :: G, B, _ => by
    obtain ⟨G', l, h⟩ := shiftDown_mid Y (A ++ [y]) (G ++ [left y]) B (by simp)
    refine ⟨G', by simpa using l, ?_⟩
    have e : A ++ (g :: G ++ (y :: Y ++ B)) = A ++ g :: (G ++ y :: (Y ++ B)) := by simp
    have l1 : A.length + (g :: G).length = A.length + 1 + G.length := by simp; omega
    rw [e, l1, List.length_cons, shiftDown, moveTo_down]
    simp only [Res.ok_bind]
    have e2 : (A ++ [y]) ++ ((G ++ [left y]) ++ (Y ++ B)) = A ++ y :: (G ++ left y :: (Y ++ B)) := by simp
    have l2 : (A ++ [y]).length + (G ++ [left y]).length = A.length + 1 + G.length + 1 := by simp; omega
    rw [e2, l2, show (A ++ [y]).length = A.length + 1 by simp] at h
    rw [h]; simp

/-- **C113** `erase`: the elements of the range are gone, the others stay in their order. -/
theorem C113_erase (v : List α) {a b : Nat} (hab : a ≤ b) (hb : b ≤ v.length) :
    erase left v a b = .ok (v.take a ++ v.drop b) ∧ Lst.stdErase v a b = .ok (v.take a ++ v.drop b) := by
  refine ⟨?_, by simp [Lst.stdErase, hab, hb]⟩
  rw [erase, if_pos ⟨hab, hb⟩]
  split
  · next h => subst h; simp
  · next h =>
    obtain ⟨G', l, h'⟩ := shiftDown_mid left (v.drop b) (v.take a) ((v.drop a).take (b - a)) [] (by
      intro e; have := congrArg List.length e; simp at this; omega)
    have e : v.take a ++ ((v.drop a).take (b - a) ++ (v.drop b ++ [])) = v := by
      rw [List.append_nil, show v.drop b = (v.drop a).drop (b - a) by rw [List.drop_drop]; congr 1; omega, List.take_append_drop,
        List.take_append_drop]
    have l1 : (v.take a).length = a := by simp; omega
    have l2 : a + ((v.drop a).take (b - a)).length = b := by simp; omega
    rw [e, l1, l2, List.length_drop] at h'
    rw [h']
    simp only [Res.ok_bind, Res.pure_eq]
    rw [← List.append_assoc, List.take_left' (by simp; omega)]

/-- **C113** `remove`: it returns the element, which it has moved out of the list before erasing its place. -/
theorem C113_remove (v : List α) {i : Nat} (hi : i < v.length) : takeOut left v i = .ok (v[i], v.eraseIdx i) := by
  rw [takeOut, vget_ok hi]
  simp only [Res.ok_bind, vset_ok hi]
  rw [(C113_erase left (v.set i (left v[i])) (Nat.le_succ i) (by rw [List.length_set]; exact hi)).1]
  simp only [Res.ok_bind, Res.pure_eq]
  rw [List.eraseIdx_eq_take_drop_succ, List.take_set_of_le (by omega), List.drop_set_of_lt (by omega)]

/-! ## `insert` -/

theorem shiftUp_mid (A : List α) : ∀ (n : Nat) (X B : List α) (g : α), n = A.length + X.length →
    ∃ g', shiftUp left A.length n (A ++ (X ++ g :: B)) = .ok (A ++ g' :: (X ++ B))
  | 0, X, B, g, h => by
    have : X = [] := List.eq_nil_of_length_eq_zero (by omega)
    subst this; exact ⟨g, by simp [shiftUp]⟩
  | n + 1, X, B, g, h => by
    rcases List.eq_nil_or_concat X with rfl | ⟨X, x, rfl⟩
    · refine ⟨g, ?_⟩
      rw [shiftUp, if_neg (by simp at h; omega)]; simp
    · obtain ⟨g', e⟩ := shiftUp_mid A n X (x :: B) (left x) (by simp at h; omega)
      refine ⟨g', ?_⟩
      rw [shiftUp, if_pos (by simp at h; omega)]
      have e1 : A ++ (X.concat x ++ g :: B) = (A ++ X) ++ x :: g :: B := by simp
      have l1 : n = (A ++ X).length := by simp at h ⊢; omega
      rw [e1]
      have := moveTo_up left (A ++ X) B g x
      rw [← l1] at this
      rw [this]
      simp only [Res.ok_bind]
      rw [List.append_assoc, e]; simp

/-- **C113** `insert` where there is room: the new element stands between those before `p` and the others. -/
theorem C113_insert (v : List α) {p : Nat} (e : α) (hp : p ≤ v.length) : insert left v p e = .ok (v.take p ++ e :: v.drop p) := by
  rw [insert]
  split
  · next h => subst h; simp
  · next h =>
    rw [if_pos (by omega)]
    rcases List.eq_nil_or_concat (v.drop p) with hd | ⟨X, x, hd⟩
    · have := congrArg List.length hd; simp at this; omega
    have hv : v = v.take p ++ (X ++ [x]) := by
      conv_lhs => rw [← List.take_append_drop p v, hd]
      simp
    have hl : v.length = p + X.length + 1 := by
      have := congrArg List.length hd; simp at this; omega
    have l1 : v.length - 1 = (v.take p ++ X).length := by simp; omega
    have l2 : (v.take p).length = p := by simp; omega
    have ev : v = (v.take p ++ X) ++ x :: [] := by rw [List.append_assoc]; exact hv
    rw [get_mid' ev l1]
    simp only [Res.ok_bind]
    rw [set_mid' (left x) ev l1]
    simp only [Res.ok_bind]
    obtain ⟨g', e1⟩ := shiftUp_mid left (v.take p) (v.length - 1) X [x] (left x) (by omega)
    have e2 : v.take p ++ X ++ [left x] ++ [x] = v.take p ++ (X ++ left x :: [x]) := by simp
    rw [e2]
    rw [l2] at e1
    rw [e1]
    simp only [Res.ok_bind]
    rw [set_mid' e rfl l2.symm, hd]
    simp

/-! ## `std::rotate` -/

theorem swapUp_mid : ∀ (Y A W B : List α), W ≠ [] →
    swapUp left Y.length A.length (A.length + W.length) (A ++ (W ++ (Y ++ B))) = .ok (A ++ (Y ++ (W.rotate Y.length ++ B)))
  | [], A, W, B, _ => by simp [swapUp]
  | y :: Y, A, w :: W, B, _ => by
    have h := swapUp_mid Y (A ++ [y]) (W ++ [w]) B (by simp)
    have e : A ++ (w :: W ++ (y :: Y ++ B)) = A ++ w :: (W ++ y :: (Y ++ B)) := by simp
    have l1 : A.length + (w :: W).length = A.length + 1 + W.length := by simp; omega
    rw [e, l1, List.length_cons, swapUp, swap_mid]
    simp only [Res.ok_bind]
    have e2 : (A ++ [y]) ++ ((W ++ [w]) ++ (Y ++ B)) = A ++ y :: (W ++ w :: (Y ++ B)) := by simp
    have l2 : (A ++ [y]).length + (W ++ [w]).length = A.length + 1 + W.length + 1 := by simp; omega
    rw [e2, l2, show (A ++ [y]).length = A.length + 1 by simp] at h
    rw [h, List.rotate_cons_succ]; simp

theorem swapDown_mid (A : List α) : ∀ (m : Nat) (X W B : List α), W ≠ [] → m = X.length →
    ∃ W', W'.rotate m = W ∧
      swapDown left m (A.length + X.length) (A.length + X.length + W.length) (A ++ (X ++ (W ++ B))) = .ok (A ++ (W' ++ (X ++ B)))
  | 0, X, W, B, _, h => by
    have : X = [] := List.eq_nil_of_length_eq_zero h.symm
    subst this; exact ⟨W, by simp, by simp [swapDown]⟩
  | m + 1, X, W, B, hW, h => by
    rcases List.eq_nil_or_concat X with rfl | ⟨X, x, rfl⟩
    · simp at h
    rcases List.eq_nil_or_concat W with rfl | ⟨W, w, rfl⟩
    · exact absurd rfl hW
    obtain ⟨W', r, e⟩ := swapDown_mid A m X (w :: W) (x :: B) (by simp) (by simp at h; omega)
    refine ⟨W', ?_, ?_⟩
    · rw [← List.rotate_rotate, r]; simp
    · rw [swapDown]
      have e1 : A ++ (X.concat x ++ (W.concat w ++ B)) = (A ++ X) ++ x :: (W ++ w :: B) := by simp
      have l1 : A.length + (X.concat x).length - 1 = (A ++ X).length := by simp
      have l2 : A.length + (X.concat x).length + (W.concat w).length - 1 = (A ++ X).length + 1 + W.length := by simp; omega
      rw [e1, l1, l2, swap_mid]
      simp only [Res.ok_bind]
      have e2 : A ++ (X ++ (w :: W ++ x :: B)) = (A ++ X) ++ w :: (W ++ x :: B) := by simp
      have l3 : A.length + X.length + (w :: W).length = (A ++ X).length + 1 + W.length := by simp; omega
      rw [e2, l3, ← List.length_append] at e
      rw [e]; simp

theorem rotateLoop_mid (f : Nat) : ∀ (A X Y B : List α), X ≠ [] → Y ≠ [] → X.length + Y.length ≤ f →
    rotateLoop left f A.length (X.length + Y.length) X.length (A ++ (X ++ (Y ++ B))) = .ok (A ++ (Y ++ (X ++ B))) := by
  induction f with
  | zero => intro A X Y B hX _ hf; exact absurd (List.eq_nil_of_length_eq_zero (by omega)) hX
  | succ f ih =>
    intro A X Y B hX hY hf
    have hx := List.length_pos_iff.mpr hX
    have hy := List.length_pos_iff.mpr hY
    rw [rotateLoop]
    split
    · next h =>
      rw [show X.length + Y.length - X.length = Y.length by omega, swapUp_mid left Y A X B hX]
      simp only [Res.ok_bind]
      rw [Nat.add_mod_left]
      have hr := Nat.mod_lt Y.length hx
      split
      · next h0 => rw [← List.rotate_mod, h0]; simp
      · next h0 =>
        have := ih (A ++ Y) (X.drop (Y.length % X.length)) (X.take (Y.length % X.length)) B
          (drop_ne hr) (take_ne (by omega) (by omega)) (by rw [List.length_drop, List.length_take]; omega)
        rw [← List.rotate_mod, List.rotate_eq_drop_append_take (Nat.le_of_lt hr)]
        have l1 : (X.drop (Y.length % X.length)).length + (X.take (Y.length % X.length)).length = X.length := by simp; omega
        rw [l1, List.length_drop, List.length_append] at this
        simp only [List.append_assoc] at this ⊢
        rw [this, ← List.append_assoc (X.take _), List.take_append_drop]
    · next h =>
      have l0 : X.length + Y.length - X.length = Y.length := by omega
      have l2 : X.length + Y.length - Y.length = X.length := by omega
      simp only [l0, l2]
      rw [show A.length + (X.length + Y.length) - Y.length = A.length + X.length by omega, ← Nat.add_assoc]
      obtain ⟨W, r, e⟩ := swapDown_mid left A X.length X Y B hY rfl
      rw [e]
      simp only [Res.ok_bind]
      rw [Nat.add_mod_right]
      have hr := Nat.mod_lt X.length hy
      have lW : W.length = Y.length := by rw [← r]; simp
      split
      · next h0 => rw [← r, ← List.rotate_mod, lW, h0]; simp
      · next h0 =>
        have := ih A (W.take (X.length % Y.length)) (W.drop (X.length % Y.length)) (X ++ B)
          (take_ne (by omega) (by omega)) (drop_ne (by omega)) (by rw [List.length_drop, List.length_take]; omega)
        have l1 : (W.take (X.length % Y.length)).length + (W.drop (X.length % Y.length)).length = Y.length := by simp; omega
        have l3 : (W.take (X.length % Y.length)).length = X.length % Y.length := by simp; omega
        rw [l1, l3, ← List.append_assoc (W.take _), List.take_append_drop] at this
        have er : Y = W.drop (X.length % Y.length) ++ W.take (X.length % Y.length) := by
          conv_lhs => rw [← r, ← List.rotate_mod, lW, List.rotate_eq_drop_append_take (by omega)]
        rw [this]
        conv_rhs => rw [er]
        simp

/-- **C113** `std::rotate`: the elements from `k` on come first, those before `k` follow. -/
theorem C113_rotate (v : List α) {k : Nat} (hk : k ≤ v.length) :
    rotate left v k = .ok (v.drop k ++ v.take k) ∧ Lst.stdRotate v k = v.drop k ++ v.take k := by
  refine ⟨?_, rfl⟩
  rw [rotate, if_neg (by omega)]
  split
  · next h => rcases h with rfl | rfl <;> simp
  · next h =>
    push Not at h
    have hX : v.take k ≠ [] := take_ne (by omega) hk
    have hY : v.drop k ≠ [] := drop_ne (by omega)
    have l1 : (v.take k).length = k := by simp; omega
    have l2 : (v.drop k).length = v.length - k := by simp
    have e : ([] : List α) ++ (v.take k ++ (v.drop k ++ [])) = v := by simp
    split
    · next h2 =>
      have := swapUp_mid left (v.drop k) [] (v.take k) [] hX
      rw [e, l1, l2, ← h2] at this
      rw [show (0 : Nat) = ([] : List α).length from rfl, show swapUp left k ([] : List α).length k v = swapUp left k ([] : List α).length
        (([] : List α).length + k) v by simp, this]
      have : (v.take k).rotate k = v.take k := by
        have := List.rotate_length (v.take k)
        rwa [l1] at this
      rw [this]; simp
    · have := rotateLoop_mid left v.length [] (v.take k) (v.drop k) [] hX hY (by omega)
      rw [e, l1, l2, show k + (v.length - k) = v.length by omega] at this
      simpa using this

/-! ## `std::remove` -/

theorem removeLoop_same [BEq α] (value : Arg α) : ∀ (n i res : Nat) (v w : List α), i + n = v.length → w.length = v.length → res < i →
    (∀ q, q < res ∨ i ≤ q → v[q]? = w[q]?) →
    (∀ p, value = .ref p → p < v.length ∧ v[p]? = w[p]? ∧ (i ≤ p → ∀ e, v[p]? = some e → (e == e) = true)) →
    ∃ r v' w', removeLoop left value n i res v = .ok (r, v') ∧ Lst.stdRemoveLoop value n i res w = .ok (r, w') ∧
      v'.length = v.length ∧ w'.length = v.length ∧ r ≤ v.length ∧ v'.take r = w'.take r
  | 0, i, res, v, w, hn, hl, hri, hq, _ => by
    refine ⟨res, v, w, rfl, rfl, rfl, hl, by omega, ?_⟩
    apply List.ext_getElem?
    intro q
    rw [List.getElem?_take, List.getElem?_take]
    split
    · exact hq q (Or.inl ‹_›)
    · rfl
  | n + 1, i, res, v, w, hn, hl, hri, hq, hv => by
    have hi : i < v.length := by omega
    have hi' : i < w.length := by omega
    have hx : w[i] = v[i] := by
      have := hq i (Or.inr (le_refl i))
      rw [List.getElem?_eq_getElem hi, List.getElem?_eq_getElem hi'] at this
      exact (Option.some.inj this).symm
    obtain ⟨e, re, re', rs⟩ : ∃ e, Lst.Arg.read v value = .ok e ∧ Lst.Arg.read w value = .ok e ∧
        (∀ p, value = .ref p → v[p]? = some e) := by
      cases value with
      | val e => exact ⟨e, rfl, rfl, by simp⟩
      | ref p =>
        obtain ⟨h1, h2, h3⟩ := hv p rfl
        rw [List.getElem?_eq_getElem h1, List.getElem?_eq_getElem (by omega)] at h2
        refine ⟨v[p], by simp [Lst.Arg.read, vget_ok h1], ?_, ?_⟩
        · simp only [Lst.Arg.read]; rw [vget_ok (by omega)]; exact congrArg Res.ok (Option.some.inj h2).symm
        · rintro q ⟨⟩; exact List.getElem?_eq_getElem h1
    rw [removeLoop, Lst.stdRemoveLoop, vget_ok hi, vget_ok hi', hx]
    simp only [Res.ok_bind, re, re']
    by_cases hc : (v[i] == e) = true
    · rw [if_pos hc, if_pos hc]
      exact removeLoop_same value n (i + 1) res v w (by omega) hl (by omega) (fun q h => hq q (by omega))
        (fun p h => ⟨(hv p h).1, (hv p h).2.1, fun h' => (hv p h).2.2 (by omega)⟩)
    · rw [if_neg hc, if_neg hc, moveTo, vget_ok hi]
      simp only [Res.ok_bind]
      rw [vset_ok (by omega), vset_ok (by omega)]
      simp only [Res.ok_bind]
      rw [vset_ok (by simpa using hi)]
      simp only [Res.ok_bind]
      obtain ⟨r, v', w', h1, h2, h3, h4, h5, h6⟩ := removeLoop_same value n (i + 1) (res + 1) ((v.set res v[i]).set i (left v[i])) (w.set res v[i])
        (by simp; omega) (by simp; omega) (by omega) (by
          intro q h
          rw [List.getElem?_set_ne (by omega)]
          by_cases hqr : q = res
          · subst hqr; rw [List.getElem?_set_self (by omega), List.getElem?_set_self (by omega)]
          · rw [List.getElem?_set_ne (by omega), List.getElem?_set_ne (by omega)]; exact hq q (by omega)) (by
          intro p hp
          obtain ⟨g1, g2, g3⟩ := hv p hp
          have hpi : p ≠ i := by
            rintro rfl
            apply hc
            have hre := rs p hp
            have : v[p] = e := by rw [List.getElem?_eq_getElem hi] at hre; exact Option.some.inj hre
            rw [this]
            exact g3 (le_refl _) e hre
          refine ⟨by simpa using g1, ?_, ?_⟩
          · rw [List.getElem?_set_ne (Ne.symm hpi)]
            by_cases hpr : p = res
            · subst hpr; rw [List.getElem?_set_self (by omega), List.getElem?_set_self (by omega)]
            · rw [List.getElem?_set_ne (Ne.symm hpr), List.getElem?_set_ne (Ne.symm hpr)]; exact g2
          · intro h'
            rw [List.getElem?_set_ne (by omega), List.getElem?_set_ne (by omega)]
            exact g3 (by omega))
      exact ⟨r, v', w', h1, h2, by simpa using h3, by simpa using h4, by simpa using h5, h6⟩

/-- **C113** `/=`: moving instead of copying makes no difference, also where the argument is an element of the list itself, if that element is
equal to itself or to none of the list. -/
theorem C113_remove_all [BEq α] (value : Arg α) (v : List α)
    (h : ∀ p, value = .ref p → ∃ e, v[p]? = some e ∧ ((e == e) = true ∨ ∀ x ∈ v, (x == e) = false)) :
    ∃ r, removeAll left value v = .ok r ∧ Lst.removeAll value v = (.ok (), r) := by
  by_cases hnil : v = []
  · subst hnil; exact ⟨[], by simp [removeAll], by simp [Lst.removeAll, Lst.stdRemove, Lst.stdErase]⟩
  obtain ⟨e, re, rs⟩ : ∃ e, Lst.Arg.read v value = .ok e ∧
      (∀ p, value = .ref p → v[p]? = some e ∧ ((e == e) = true ∨ ∀ x ∈ v, (x == e) = false)) := by
    cases value with
    | val e => exact ⟨e, rfl, by simp⟩
    | ref p =>
      obtain ⟨e, h1, h2⟩ := h p rfl
      refine ⟨e, by simp [Lst.Arg.read, vget, h1], ?_⟩
      rintro q ⟨⟩; exact ⟨h1, h2⟩
  simp only [removeAll, Lst.removeAll, Lst.stdRemove, Meth.get_bind, List.isEmpty_iff, hnil, if_false, re, Res.ok_bind, Lst.stdFind_all]
  have hle : v.findIdx (fun x => x == e) ≤ v.length := List.findIdx_le_length
  by_cases hp : v.findIdx (fun x => x == e) = v.length
  · refine ⟨v, ?_, ?_⟩
    · simp [hp, erase]
    · simp [hp, Lst.stdErase]
  · have hlt : v.findIdx (fun x => x == e) < v.length := by omega
    obtain ⟨r, v', w', h1, h2, h3, h4, h5, h6⟩ := removeLoop_same left value (v.length - (v.findIdx (fun x => x == e) + 1))
      (v.findIdx (fun x => x == e) + 1) (v.findIdx (fun x => x == e)) v v (by omega) rfl (by omega) (fun _ _ => rfl) (by
        intro p hvp
        obtain ⟨g1, g2⟩ := rs p hvp
        refine ⟨(List.getElem?_eq_some_iff.mp g1).1, rfl, ?_⟩
        intro _ e' he'
        rw [g1] at he'
        cases he'
        rcases g2 with g2 | g2
        · exact g2
        · exact absurd (g2 _ (List.getElem_mem hlt)) (by
            have := List.findIdx_getElem (w := hlt)
            simpa using this))
    refine ⟨w'.take r, ?_, ?_⟩
    · simp only [hp, if_false, h1, Res.ok_bind]
      rw [(C113_erase left v' (by omega) (le_refl _)).1, h6]; simp
    · simp only [hp, if_false, h2, Meth.lift_ok_bind, Meth.set_bind]
      simp [Lst.stdErase, h4, h5]

/-- An equality under which only 1 equals 2. -/
structure Odd where
  n : Nat
deriving DecidableEq

instance : BEq Odd := ⟨fun x y => x.n == 1 && y.n == 2⟩

/-- **C113** `/=`: the condition is needed. With an equality under which the element is not equal to itself, it is moved away while the loop still
compares with it. -/
theorem C113_remove_all_needs :
    removeAll (fun _ => ⟨0⟩) (.ref 1) [⟨1⟩, ⟨2⟩, (⟨1⟩ : Odd)] = .ok [⟨2⟩, ⟨1⟩] ∧
      Lst.removeAll (.ref 1) [⟨1⟩, ⟨2⟩, (⟨1⟩ : Odd)] = (.ok (), [⟨2⟩]) := ⟨by decide, rfl⟩

/-! Concrete cases: numbers that moving sets to 0. -/

example : reverseLoop (fun _ : Nat => 0) 5 0 4 [1, 2, 3, 4] = .ok [4, 3, 2, 1] := (C113_reverse (fun _ => 0) [1, 2, 3, 4]).1

example : erase (fun _ : Nat => 0) [1, 2, 3, 4, 5] 1 3 = .ok [1, 4, 5] := (C113_erase (fun _ => 0) [1, 2, 3, 4, 5] (by decide) (by decide)).1

example : takeOut (fun _ : Nat => 0) [1, 2, 3] 1 = .ok (2, [1, 3]) := C113_remove (fun _ => 0) [1, 2, 3] (by decide)

example : insert (fun _ : Nat => 0) [1, 2, 3] 1 7 = .ok [1, 7, 2, 3] := C113_insert (fun _ => 0) [1, 2, 3] 7 (by decide)

example : rotate (fun _ : Nat => 0) [1, 2, 3, 4, 5] 2 = .ok [3, 4, 5, 1, 2] := (C113_rotate (fun _ => 0) [1, 2, 3, 4, 5] (by decide)).1

example : ∃ r, removeAll (fun _ : Nat => 0) (.ref 1) [1, 2, 1, 2, 3] = .ok r ∧ Lst.removeAll (.ref 1) [1, 2, 1, 2, 3] = (.ok (), r) :=
  C113_remove_all (fun _ => 0) (.ref 1) [1, 2, 1, 2, 3] (by rintro p ⟨⟩; exact ⟨2, rfl, Or.inl rfl⟩)

/-- In this case the loop overwrites the element it compares with, as C39 describes. -/
example : removeAll (fun _ : Nat => 0) (.ref 1) [1, 2, 1, 2, 3] = .ok [1, 1, 2, 3] := by decide

end Moves
end Pyincpp
