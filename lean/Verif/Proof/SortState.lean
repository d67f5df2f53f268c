import Verif.Model.SortState
import Verif.Proof.StableSort
import Mathlib.Tactic.Linarith
import Mathlib.Tactic.Ring
import Mathlib.Tactic.IntervalCases

/-! # `std::stable_sort` with a comparator that keeps state -/

namespace Pyincpp
namespace StableSort

variable {α σ β γ : Type} {left : α → α}

/-! ## The state does not matter when the answers do not depend on it -/

/-- The computation with state does to the places what the one without does. -/
def Sim (x : Meth (List α) β) (y : Meth (List α × σ) β) : Prop := ∀ v s, (y (v, s)).1 = (x v).1 ∧ (y (v, s)).2.1 = (x v).2

theorem Sim.bind {x : Meth (List α) β} {y : Meth (List α × σ) β} {f : β → Meth (List α) γ} {g : β → Meth (List α × σ) γ} (h : Sim x y)
    (hf : ∀ a, Sim (f a) (g a)) : Sim (x >>= f) (y >>= g) := by
  intro v s
  change (Meth.bind y g (v, s)).1 = (Meth.bind x f v).1 ∧ (Meth.bind y g (v, s)).2.1 = (Meth.bind x f v).2
  obtain ⟨h1, h2⟩ := h v s
  unfold Meth.bind
  rcases e : x v with ⟨_ | _ | _ | _, w⟩ <;> rcases e' : y (v, s) with ⟨r, w', s'⟩ <;> rw [e, e'] at h1 h2 <;> dsimp only at h1 h2 <;>
    subst h1 h2
  · exact hf _ _ _
  all_goals exact ⟨rfl, rfl⟩

theorem Sim.ite {p : Prop} [Decidable p] {x x' : Meth (List α) β} {y y' : Meth (List α × σ) β} (h : Sim x y) (h' : Sim x' y') :
    Sim (if p then x else x') (if p then y else y') := by
  by_cases hp : p
  · rw [if_pos hp, if_pos hp]; exact h
  · rw [if_neg hp, if_neg hp]; exact h'

theorem sim_on (x : Meth (List α) β) : Sim x (on x : Meth (List α × σ) β) := fun _ _ => ⟨rfl, rfl⟩
theorem sim_pure (a : β) : Sim (pure a : Meth (List α) β) (pure a : Meth (List α × σ) β) := fun _ _ => ⟨rfl, rfl⟩
theorem sim_lift (a : Res β) : Sim (Meth.lift a : Meth (List α) β) (Meth.lift a : Meth (List α × σ) β) := fun _ _ => ⟨rfl, rfl⟩

variable {cmpS : α → α → Meth σ Bool} {cmp : α → α → Res Bool} (h : ∀ x y s, (cmpS x y s).1 = cmp x y)
include h

theorem sim_ask (x y : α) : Sim (ask cmp x y) (askS cmpS x y) := fun _ s => ⟨h x y s, rfl⟩

theorem sim_linearInsert (val : α) (last : Nat) : Sim (linearInsert left cmp val last) (linearInsertS left cmpS val last) := by
  induction last with
  | zero => exact sim_lift _
  | succ last ih =>
    refine (sim_on _).bind fun x => (sim_ask h _ _).bind fun b => Sim.ite ?_ (sim_on _)
    exact (sim_on _).bind fun _ => ih

theorem sim_insertAt (a i : Nat) : Sim (insertAt left cmp a i) (insertAtS left cmpS a i) :=
  (sim_on _).bind fun _ => (sim_on _).bind fun _ => (sim_ask h _ _).bind fun _ =>
    Sim.ite ((sim_on _).bind fun _ => (sim_on _).bind fun _ => sim_on _) ((sim_on _).bind fun _ => sim_linearInsert h _ _)

theorem sim_insertionLoop (a n i : Nat) : Sim (insertionLoop left cmp a n i) (insertionLoopS left cmpS a n i) := by
  induction n generalizing i with
  | zero => exact sim_pure _
  | succ n ih => exact (sim_insertAt h a i).bind fun _ => ih _

theorem sim_chunkSort (k a b : Nat) : Sim (chunkSort left cmp k a b) (chunkSortS left cmpS k a b) := by
  induction k generalizing a b with
  | zero => exact sim_lift _
  | succ k ih => exact Sim.ite ((sim_insertionLoop h _ _ _).bind fun _ => ih _ _) (sim_insertionLoop h _ _ _)

theorem sim_mergeInto (rest : Bool) (k p₁ e₁ p₂ e₂ r : Nat) : Sim (mergeInto left cmp rest k p₁ e₁ p₂ e₂ r) (mergeIntoS left cmpS rest k p₁ e₁ p₂ e₂ r) := by
  induction k generalizing p₁ e₁ p₂ e₂ r with
  | zero => exact sim_lift _
  | succ k ih =>
    refine Sim.ite ((sim_on _).bind fun _ => (sim_on _).bind fun _ => (sim_ask h _ _).bind fun _ => Sim.ite ?_ ?_) ?_
    · exact (sim_on _).bind fun _ => ih _ _ _ _ _
    · exact (sim_on _).bind fun _ => ih _ _ _ _ _
    · exact (sim_on _).bind fun _ => Sim.ite (sim_on _) (sim_pure _)

theorem sim_mergePass (step k a b r : Nat) : Sim (mergePass left cmp step k a b r) (mergePassS left cmpS step k a b r) := by
  induction k generalizing a b r with
  | zero => exact sim_lift _
  | succ k ih => exact Sim.ite ((sim_mergeInto h _ _ _ _ _ _ _).bind fun _ => ih _ _ _) (sim_mergeInto h _ _ _ _ _ _ _)

theorem sim_mergeLoop (a b buf k step : Nat) : Sim (mergeLoop left cmp a b buf k step) (mergeLoopS left cmpS a b buf k step) := by
  induction k generalizing step with
  | zero => exact sim_lift _
  | succ k ih => exact Sim.ite ((sim_mergePass h _ _ _ _ _).bind fun _ => (sim_mergePass h _ _ _ _ _).bind fun _ => ih _) (sim_pure _)

theorem sim_mergeSort (a b buf : Nat) : Sim (mergeSort left cmp a b buf) (mergeSortS left cmpS a b buf) :=
  (sim_chunkSort h _ _ _).bind fun _ => sim_mergeLoop h _ _ _ _ _

theorem sim_mergeBack (a buf k n₁ n₂ r : Nat) : Sim (mergeBack left cmp a buf k n₁ n₂ r) (mergeBackS left cmpS a buf k n₁ n₂ r) := by
  induction k generalizing n₁ n₂ r with
  | zero => exact sim_lift _
  | succ k ih =>
    refine (sim_on _).bind fun _ => (sim_on _).bind fun _ => (sim_ask h _ _).bind fun _ => Sim.ite ?_ ?_
    · exact (sim_on _).bind fun _ => Sim.ite (sim_on _) (ih _ _ _)
    · exact (sim_on _).bind fun _ => Sim.ite (sim_pure _) (ih _ _ _)

theorem sim_mergeHalves (a n : Nat) : Sim (mergeHalves left cmp a n) (mergeHalvesS left cmpS a n) :=
  Sim.ite ((sim_on _).bind fun _ => sim_mergeInto h _ _ _ _ _ _ _)
    ((sim_on _).bind fun _ => Sim.ite (sim_on _) (Sim.ite (sim_pure _) (sim_mergeBack h _ _ _ _ _ _)))

theorem sim_halves (n : Nat) : Sim (halves left cmp n) (halvesS left cmpS n) :=
  (sim_mergeSort h _ _ _).bind fun _ => (sim_mergeSort h _ _ _).bind fun _ => sim_mergeHalves h _ _

theorem sim_run (v : List α) (s : σ) : (runS left cmpS v s).1 = (run left cmp v).1 ∧ (runS left cmpS v s).2.1 = (run left cmp v).2 := by
  cases v with
  | nil => exact ⟨rfl, rfl⟩
  | cons x v =>
    obtain ⟨h1, h2⟩ := sim_halves (left := left) h (x :: v).length ((x :: v) ++ List.replicate (((x :: v).length + 1) / 2) (left x)) s
    exact ⟨h1, congrArg (List.take _) h2⟩

omit h

/-! ## The number of calls -/

/-- From these places, at most `B` calls. -/
def CostAt (y : Meth (List α × Nat) β) (B : Nat) (v : List α) : Prop := ∀ n, (y (v, n)).2.2 ≤ n + B

/-- At most `B` calls. -/
def Cost (y : Meth (List α × Nat) β) (B : Nat) : Prop := ∀ v, CostAt y B v

theorem CostAt.bind {x : Meth (List α × Nat) β} {f : β → Meth (List α × Nat) γ} {B C D : Nat} {v : List α} (h : CostAt x B v)
    (hf : ∀ n a w m, x (v, n) = (.ok a, w, m) → CostAt (f a) C w) (hD : B + C ≤ D) : CostAt (x >>= f) D v := by
  intro n
  change (Meth.bind x f (v, n)).2.2 ≤ _
  have h1 := h n
  have h2 := hf n
  unfold Meth.bind
  rcases e : x (v, n) with ⟨_ | _ | _ | _, w, m⟩ <;> rw [e] at h1 h2 <;> dsimp only at h1 ⊢
  · have := h2 _ _ _ rfl m
    omega
  all_goals omega

theorem Cost.bind {x : Meth (List α × Nat) β} {f : β → Meth (List α × Nat) γ} {B C D : Nat} (h : Cost x B) (hf : ∀ a, Cost (f a) C)
    (hD : B + C ≤ D) : Cost (x >>= f) D := fun v => (h v).bind (fun _ a w _ _ => hf a w) hD

theorem CostAt.mono {x : Meth (List α × Nat) β} {B C : Nat} {v : List α} (h : CostAt x B v) (hB : B ≤ C) : CostAt x C v := fun n => (h n).trans (by omega)

theorem Cost.ite {p : Prop} [Decidable p] {x y : Meth (List α × Nat) β} {B : Nat} (h : p → Cost x B) (h' : ¬ p → Cost y B) :
    Cost (if p then x else y) B := by
  by_cases hp : p
  · rw [if_pos hp]; exact h hp
  · rw [if_neg hp]; exact h' hp

theorem cost_on (x : Meth (List α) β) (B : Nat) : Cost (on x : Meth (List α × Nat) β) B := fun _ n => by
  show n ≤ n + B
  omega
theorem cost_pure (a : β) (B : Nat) : Cost (pure a : Meth (List α × Nat) β) B := fun _ n => by
  show n ≤ n + B
  omega
theorem cost_lift (a : Res β) (B : Nat) : Cost (Meth.lift a : Meth (List α × Nat) β) B := fun _ n => by
  show n ≤ n + B
  omega
theorem cost_ask (x y : α) : Cost (askS (counted cmp) x y) 1 := fun _ n => le_refl (n + 1)

theorem get_inv {v : List α} {i n : Nat} {a : α} {w : List α} {m : Nat} (e : on (get i) (v, n) = (Res.ok a, w, m)) : v[i]? = some a ∧ w = v := by
  unfold on at e
  rw [Prod.mk.injEq, Prod.mk.injEq] at e
  obtain ⟨e1, e2, -⟩ := e
  cases hv : v[i]? with
  | none => rw [show (get i v) = (.ub .outOfBounds, v) by simp [get, vget, hv]] at e1; exact nomatch e1
  | some b =>
    rw [get_ok hv] at e1 e2
    dsimp only at e1 e2
    rw [Res.ok.injEq] at e1
    exact ⟨by rw [e1], e2.symm⟩

theorem out_inv {v : List α} {i n q : Nat} {a : α} {w : List α} {m : Nat} (e : on (out left i) (v, n) = (Res.ok a, w, m)) (h : q ≠ i) :
    v[i]? = some a ∧ w[q]? = v[q]? := by
  unfold on at e
  rw [Prod.mk.injEq, Prod.mk.injEq] at e
  obtain ⟨e1, e2, -⟩ := e
  cases hv : v[i]? with
  | none => rw [show (out left i v) = (.ub .outOfBounds, v) by simp [out, get, vget, hv, bind, Meth.bind]] at e1; exact nomatch e1
  | some b =>
    rw [out_ok hv] at e1 e2
    dsimp only at e1 e2
    rw [Res.ok.injEq] at e1
    refine ⟨by rw [e1], ?_⟩
    rw [← e2]
    exact List.getElem?_set_ne (Ne.symm h)

theorem move_inv {v : List α} {i j n q : Nat} {u : Unit} {w : List α} {m : Nat} {x : α} (hx : v[j]? = some x)
    (e : on (move left i j) (v, n) = (Res.ok u, w, m)) (hij : i ≠ j) (h : q ≠ i) (h' : q ≠ j) : w[q]? = v[q]? := by
  unfold on at e
  rw [Prod.mk.injEq, Prod.mk.injEq] at e
  obtain ⟨e1, e2, -⟩ := e
  by_cases hi : i < v.length
  · obtain ⟨m', e', -, -, hq⟩ := move_ok (left := left) hx hi hij
    rw [e'] at e2
    rw [← e2]
    exact hq q h h'
  · have : move left i j v = (.ub .outOfBounds, v) := by
      rw [move, bind_ok (get_ok hx)]
      change Meth.bind (put i x) _ v = _
      rw [Meth.bind, show put i x v = (.ub .outOfBounds, v) by simp [put, vset, hi]]
    rw [this] at e1
    exact nomatch e1

theorem ask_inv {v : List α} {n : Nat} {x y : α} {b : Bool} {w : List α} {m : Nat} (e : askS (counted cmp) x y (v, n) = (Res.ok b, w, m)) :
    cmp x y = .ok b ∧ w = v := by
  unfold askS at e
  rw [Prod.mk.injEq, Prod.mk.injEq] at e
  exact ⟨e.1, e.2.1.symm⟩

/-- Inserting stops at an element that the new one is not before. -/
theorem cost_linearInsert (val : α) {a : Nat} {f : α} (hc : cmp val f = .ok false) (last : Nat) : ∀ v : List α, a < last → v[a]? = some f →
    CostAt (linearInsertS left (counted cmp) val last) (last - a) v := by
  induction last with
  | zero => intro v h; omega
  | succ last ih =>
    intro v ha hf
    refine (cost_on _ 0 v).bind (C := last + 1 - a) (fun n x w m e => ?_) (by omega)
    obtain ⟨hx, rfl⟩ := get_inv e
    refine (cost_ask val x w).bind (C := last - a) (fun n b w' m e => ?_) (by omega)
    obtain ⟨hb, rfl⟩ := ask_inv e
    by_cases hl : a = last
    · subst hl
      rw [hf, Option.some.injEq] at hx
      subst hx
      rw [hc, Res.ok.injEq] at hb
      subst hb
      rw [if_neg (by simp)]
      exact cost_on _ _ _
    · cases b with
      | false => rw [if_neg (by simp)]; exact cost_on _ _ _
      | true =>
        rw [if_pos rfl]
        refine (cost_on _ 0 w').bind (C := last - a) (fun n u w'' m e => ?_) (by omega)
        exact ih w'' (by omega) ((move_inv hx e (by omega) (by omega) hl).trans hf)

theorem cost_insertAt {a i : Nat} (h : a < i) : Cost (insertAtS left (counted cmp) a i) (1 + (i - a)) := by
  intro v
  refine (cost_on _ 0 v).bind (C := 1 + (i - a)) (fun n x w m e => ?_) (by omega)
  obtain ⟨hx, rfl⟩ := get_inv e
  refine (cost_on _ 0 w).bind (C := 1 + (i - a)) (fun n f w' m e => ?_) (by omega)
  obtain ⟨hf, rfl⟩ := get_inv e
  refine (cost_ask x f w').bind (C := i - a) (fun n b w m e => ?_) (by omega)
  obtain ⟨hb, rfl⟩ := ask_inv e
  cases b with
  | true => exact (cost_on _ 0).bind (C := 0) (fun _ => (cost_on _ 0).bind (fun _ => cost_on _ 0) le_rfl) (by omega) _
  | false =>
    rw [if_neg (by simp)]
    refine (cost_on _ 0 w).bind (C := i - a) (fun n y w' m e => ?_) (by omega)
    obtain ⟨hy, hq⟩ := out_inv (q := a) e (by omega)
    rw [hx, Option.some.injEq] at hy
    subst hy
    exact cost_linearInsert x hb i w' h (hq.trans hf)

theorem cost_insertionLoop (a n : Nat) : ∀ i, a < i → Cost (insertionLoopS left (counted cmp) a n i) (n * (n + 1 + 2 * (i - a)) / 2) := by
  induction n with
  | zero => intro i _; exact cost_pure _ _
  | succ n ih =>
    intro i hi
    refine (cost_insertAt hi).bind (fun _ => ih (i + 1) (by omega)) ?_
    rw [show (n + 1) * (n + 1 + 1 + 2 * (i - a)) = n * (n + 1 + 2 * (i + 1 - a)) + 2 * (1 + (i - a)) by
      rw [show i + 1 - a = i - a + 1 by omega]; ring]
    omega

theorem cost_insertionSort {a b : Nat} (hb : b - a ≤ 7) : Cost (insertionSortS left (counted cmp) a b) (4 * (b - a)) := by
  intro v
  refine (cost_insertionLoop a (b - a - 1) (a + 1) (by omega) v).mono ?_
  rw [show a + 1 - a = 1 by omega]
  generalize b - a = l at *
  interval_cases l <;> decide

theorem cost_chunkSort (k a b : Nat) : Cost (chunkSortS left (counted cmp) k a b) (4 * (b - a)) := by
  induction k generalizing a with
  | zero => exact cost_lift _ _
  | succ k ih =>
    refine Cost.ite (fun h => ?_) (fun h => cost_insertionSort (by omega))
    refine (cost_insertionSort (by omega)).bind (fun _ => ih (a + 7)) (by omega)

theorem cost_mergeInto (rest : Bool) (k p₁ e₁ p₂ e₂ r : Nat) (h₁ : p₁ ≤ e₁) (h₂ : p₂ ≤ e₂) :
    Cost (mergeIntoS left (counted cmp) rest k p₁ e₁ p₂ e₂ r) ((e₁ - p₁) + (e₂ - p₂)) := by
  induction k generalizing p₁ p₂ r with
  | zero => exact cost_lift _ _
  | succ k ih =>
    refine Cost.ite (fun hp => ?_) (fun _ => (cost_on _ 0).bind (fun _ => Cost.ite (fun _ => cost_on _ _) (fun _ => cost_pure _ _)) (Nat.zero_add _).le)
    refine (cost_on _ 0).bind (fun _ => (cost_on _ 0).bind (fun _ => (cost_ask _ _).bind (fun _ => Cost.ite (fun _ => ?_) (fun _ => ?_)) le_rfl) le_rfl)
      (?_ : 0 + (0 + (1 + ((e₁ - p₁) + (e₂ - p₂) - 1))) ≤ _)
    · exact (cost_on _ 0).bind (fun _ => ih p₁ (p₂ + 1) (r + 1) h₁ (by omega)) (by omega)
    · exact (cost_on _ 0).bind (fun _ => ih (p₁ + 1) p₂ (r + 1) (by omega) h₂) (by omega)
    · omega

theorem cost_mergePass (step k a b r : Nat) (h : a ≤ b) : Cost (mergePassS left (counted cmp) step k a b r) (b - a) := by
  induction k generalizing a r with
  | zero => exact cost_lift _ _
  | succ k ih =>
    refine Cost.ite (fun hs => ?_) (fun hs v => ?_)
    · exact (cost_mergeInto true _ _ _ _ _ _ (by omega) (by omega)).bind (fun _ => ih (a + 2 * step) _ (by omega)) (by omega)
    · exact (cost_mergeInto true _ _ _ _ _ _ (by omega) (by omega) v).mono (by omega)

theorem cost_mergeLoop (a b buf k step t : Nat) (h : a ≤ b) (ht : b - a ≤ step * 4 ^ t) :
    Cost (mergeLoopS left (counted cmp) a b buf k step) (2 * t * (b - a)) := by
  induction k generalizing step t with
  | zero => exact cost_lift _ _
  | succ k ih =>
    refine Cost.ite (fun hs => ?_) (fun _ => cost_pure _ _)
    obtain _ | t := t
    · rw [pow_zero, mul_one] at ht; omega
    · refine (cost_mergePass _ _ _ _ _ h).bind (fun _ => (cost_mergePass _ _ _ _ _ (by omega)).bind (fun _ => ih (4 * step) t ?_) le_rfl) ?_
      · rw [pow_succ] at ht
        calc b - a ≤ step * (4 ^ t * 4) := ht
          _ = 4 * step * 4 ^ t := by ring
      · rw [show buf + (b - a) - buf = b - a by omega, show 2 * (t + 1) * (b - a) = 2 * t * (b - a) + 2 * (b - a) by ring]
        omega

theorem cost_mergeSort (a b buf t : Nat) (h : a ≤ b) (ht : b - a ≤ 7 * 4 ^ t) :
    Cost (mergeSortS left (counted cmp) a b buf) ((2 * t + 4) * (b - a)) :=
  (cost_chunkSort _ _ _).bind (fun _ => cost_mergeLoop a b buf _ 7 t h ht) (by rw [Nat.add_mul]; omega)

theorem cost_mergeBack (a buf k n₁ n₂ r : Nat) (h₁ : 0 < n₁) (h₂ : 0 < n₂) : Cost (mergeBackS left (counted cmp) a buf k n₁ n₂ r) (n₁ + n₂ - 1) := by
  induction k generalizing n₁ n₂ r with
  | zero => exact cost_lift _ _
  | succ k ih =>
    refine (cost_on _ 0).bind (fun _ => (cost_on _ 0).bind (fun _ => (cost_ask _ _).bind (fun _ => Cost.ite (fun _ => ?_) (fun _ => ?_)) le_rfl) le_rfl)
      (?_ : 0 + (0 + (1 + (n₁ + n₂ - 2))) ≤ _)
    · exact (cost_on _ 0).bind (fun _ => Cost.ite (fun _ => cost_on _ _) (fun h v => (ih (n₁ - 1) n₂ _ (by omega) h₂ v).mono (by omega))) (Nat.zero_add _).le
    · exact (cost_on _ 0).bind (fun _ => Cost.ite (fun _ => cost_pure _ _) (fun h v => (ih n₁ (n₂ - 1) _ h₁ (by omega) v).mono (by omega))) (Nat.zero_add _).le
    · omega

theorem cost_mergeHalves {h n : Nat} (hn : h ≤ n) : Cost (mergeHalvesS left (counted cmp) h n) n := by
  refine Cost.ite (fun _ => ?_) (fun _ => ?_)
  · exact (cost_on _ 0).bind (fun _ => cost_mergeInto false _ _ _ _ _ _ (by omega) hn) (by omega)
  · refine (cost_on _ 0).bind (fun _ => Cost.ite (fun _ => cost_on _ _) (fun h0 => Cost.ite (fun _ => cost_pure _ _) (fun h1 => ?_))) (Nat.zero_add n).le
    exact fun v => (cost_mergeBack 0 n (n + 1) h (n - h) n (by omega) (by omega) v).mono (by omega)

theorem cost_halves {n t : Nat} (ht : (n + 1) / 2 ≤ 7 * 4 ^ t) : Cost (halvesS left (counted cmp) n) ((2 * t + 5) * n) := by
  refine (cost_mergeSort 0 ((n + 1) / 2) n t (by omega) (by omega)).bind (fun _ => (cost_mergeSort ((n + 1) / 2) n n t (by omega) (by omega)).bind
    (fun _ => cost_mergeHalves (by omega)) le_rfl) ?_
  rw [show (2 * t + 4) * ((n + 1) / 2 - 0) + ((2 * t + 4) * (n - (n + 1) / 2) + n) = (2 * t + 4) * ((n + 1) / 2 + (n - (n + 1) / 2)) + n by
    rw [Nat.sub_zero]; ring, show (n + 1) / 2 + (n - (n + 1) / 2) = n by omega]
  exact (by ring : (2 * t + 4) * n + n = (2 * t + 5) * n).le

theorem cost_run (v : List α) (n t : Nat) (ht : (v.length + 1) / 2 ≤ 7 * 4 ^ t) : (runS left (counted cmp) v n).2.2 ≤ n + (2 * t + 5) * v.length := by
  cases v with
  | nil => simp [runS]
  | cons x v => exact cost_halves (left := left) (cmp := cmp) ht _ n

end StableSort
end Pyincpp
