import Verif.Proof.SortState
import Verif.Props.StableSort
import Mathlib.Data.Nat.Log

/-! # C116: `sort` with a comparator that keeps state, and how often it is called -/

namespace Pyincpp
namespace StableSort

variable {α σ : Type} (left : α → α)

/-- **C116** When the answers of the comparator depend on the elements only, whatever it does with its state, `sort` does what it does with the
comparator without state: the outcome and the list are the same. -/
theorem C116_state (cmpS : α → α → Meth σ Bool) (cmp : α → α → Res Bool) (h : ∀ x y s, (cmpS x y s).1 = cmp x y) (v : List α) (s : σ) :
    (runS left cmpS v s).1 = (run left cmp v).1 ∧ (runS left cmpS v s).2.1 = (run left cmp v).2 := sim_run h v s

/-- Counting the calls does not change the result. -/
example : runS (fun _ => 0) (counted (answers fun a b : Int => decide (a < b))) [3, 1, 2] 0 = (.ok (), [1, 2, 3], 3) := by decide +kernel

/-- **C116** The calls: with `t` such that `7·4^t` elements are at least half of the list, at most `2t + 5` for every element; also when the
comparator throws, and when it is no order. -/
theorem C116_calls (cmp : α → α → Res Bool) (v : List α) (n t : Nat) (ht : (v.length + 1) / 2 ≤ 7 * 4 ^ t) :
    (runS left (counted cmp) v n).2.2 ≤ n + (2 * t + 5) * v.length := cost_run v n t ht

example : (([5, 4, 3, 2, 1, 0] : List Int).length + 1) / 2 ≤ 7 * 4 ^ 0 := by decide

/-- **C116** The same with the logarithm of the length. -/
theorem C116_log (cmp : α → α → Res Bool) (v : List α) (n : Nat) :
    (runS left (counted cmp) v n).2.2 ≤ n + v.length * (Nat.log 2 v.length + 5) := by
  refine (C116_calls left cmp v n (Nat.log 2 v.length / 2) ?_).trans ?_
  · have h1 : v.length < 2 ^ (Nat.log 2 v.length + 1) := Nat.lt_pow_succ_log_self (by norm_num) _
    have h2 : 2 ^ (Nat.log 2 v.length + 1) ≤ 2 ^ (2 * (Nat.log 2 v.length / 2) + 2) := Nat.pow_le_pow_right (by norm_num) (by omega)
    rw [pow_add 2 (2 * (Nat.log 2 v.length / 2)), pow_mul, show 2 ^ 2 = 4 by norm_num] at h2
    omega
  · rw [Nat.mul_comm]
    exact Nat.add_le_add_left (Nat.mul_le_mul_left _ (by omega)) _

/-- **C116** For an order with a comparator that counts: the stable sort of C38, and the number of calls. -/
theorem C116_order {c : α → α → Bool} (hc : StrictWeak c) (v : List α) (n : Nat) : ∃ m, runS left (counted (answers c)) v n =
    (.ok (), (Lst.sort c v).2, m) ∧ m ≤ n + v.length * (Nat.log 2 v.length + 5) := by
  obtain ⟨h1, h2⟩ := C116_state left (counted (answers c)) (answers c) (fun _ _ _ => rfl) v n
  rw [C114_order left hc] at h1 h2
  exact ⟨_, Prod.ext h1 (Prod.ext h2 rfl), C116_log left (answers c) v n⟩

example : StrictWeak fun a b : Int × Int => decide (a.1 < b.1) := ⟨by simp, by simp; omega, by simp; omega⟩

/-! ## Answers that depend on the state -/

/-- A comparator that says no the first time, and yes after. -/
def noThenYes (_ _ : α) : Meth Bool Bool := fun s => (.ok s, true)

/-- **C116** A comparator that answers no first and yes to the same question after: for every list of three or more elements, `sort` goes over the
beginning of the list. -/
theorem C116_state_not (v : List α) (h : 3 ≤ v.length) : (runS left noThenYes v false).1 = .ub .outOfBounds := by
  have stop : ∀ {β γ : Type} {x : Meth (List α × Bool) β} (f : β → Meth (List α × Bool) γ) {u : List α × Bool}, (x u).1 = .ub .outOfBounds →
      ((x >>= f) u).1 = .ub .outOfBounds := by
    intro β γ x f u hx
    change (Meth.bind x f u).1 = _
    unfold Meth.bind
    rcases e : x u with ⟨r, w⟩
    rw [e] at hx
    dsimp only at hx
    subst hx
    rfl
  have next : ∀ {β γ : Type} {x : Meth (List α × Bool) β} (f : β → Meth (List α × Bool) γ) {u w : List α × Bool} {a : β}, x u = (.ok a, w) →
      ((x >>= f) u).1 = (f a w).1 := by
    intro β γ x f u w a hx
    change (Meth.bind x f u).1 = _
    unfold Meth.bind
    rw [hx]
  have first : ∀ (m : List α) (x y : α), m[0]? = some x → m[1]? = some y → (insertAtS left noThenYes 0 1 (m, false)).1 = .ub .outOfBounds := by
    intro m x y hx hy
    have hl := lt_of_get hy
    unfold insertAtS
    rw [next _ (show on (get 1) (m, false) = (.ok y, m, false) by unfold on; rw [get_ok hy]),
      next _ (show on (get 0) (m, false) = (.ok x, m, false) by unfold on; rw [get_ok hx]),
      next _ (show askS noThenYes y x (m, false) = (.ok false, m, true) from rfl), if_neg (by simp),
      next _ (show on (out left 1) (m, true) = (.ok y, m.set 1 (left y), true) by unfold on; rw [out_ok hy])]
    have hx' : (m.set 1 (left y))[0]? = some x := by rw [List.getElem?_set_ne (by omega)]; exact hx
    obtain ⟨m', e', -⟩ := move_ok (left := left) (i := 1) hx' (by simpa using hl) (by omega)
    rw [linearInsertS, next _ (show on (get 0) (m.set 1 (left y), true) = (.ok x, m.set 1 (left y), true) by unfold on; rw [get_ok hx']),
      next _ (show askS noThenYes y x (m.set 1 (left y), true) = (.ok true, m.set 1 (left y), true) from rfl), if_pos rfl,
      next _ (show on (move left 1 0) (m.set 1 (left y), true) = (.ok (), m', true) by unfold on; rw [e'])]
    rfl
  have ins : ∀ (m : List α) (x y : α) (l : Nat), m[0]? = some x → m[1]? = some y → 2 ≤ l →
      (insertionSortS left noThenYes 0 l (m, false)).1 = .ub .outOfBounds := by
    intro m x y l hx hy hl
    unfold insertionSortS
    rw [show l - 0 - 1 = l - 2 + 1 by omega]
    exact stop _ (first m x y hx hy)
  match v, h with
  | x :: y :: z :: v, _ =>
    refine stop _ (stop _ ?_)
    generalize hm : (x :: y :: z :: v) ++ List.replicate (((x :: y :: z :: v).length + 1) / 2) (left x) = m
    have hx : m[0]? = some x := by rw [← hm]; rfl
    have hy : m[1]? = some y := by rw [← hm]; rfl
    have hn : 3 ≤ (x :: y :: z :: v).length := by simp
    generalize (x :: y :: z :: v).length = n at hn
    rw [chunkSortS]
    by_cases h7 : 7 ≤ (n + 1) / 2 - 0
    · rw [if_pos h7]; exact stop _ (ins m x y (0 + 7) hx hy (by omega))
    · rw [if_neg h7]; exact ins m x y _ hx hy (by omega)

example : (runS (fun _ => 0) noThenYes ([1, 2, 3] : List Int) false).1 = .ub .outOfBounds := by decide +kernel

/-- Two elements are compared once, in the merge. -/
example : runS (fun _ => 0) noThenYes ([1, 2] : List Int) false = (.ok (), [1, 2], true) := by decide +kernel

end StableSort
end Pyincpp
