import Verif.Proof.StableSort

/-! # `std::stable_sort` with a comparator that may throw or be undefined -/

namespace Pyincpp
namespace StableSort

variable {α : Type} {left : α → α} {cmp : α → α → Res Bool}

/-- There are `N` places, and what is in them has the property. -/
def Inv (N : Nat) (P : α → Prop) (m : List α) : Prop := m.length = N ∧ ∀ x ∈ m, P x

/-- The step ends as `Q` says, or as the comparator does for some elements; the invariant holds in the end. -/
def Runs {β : Type} (cmp : α → α → Res Bool) (I : List α → Prop) (p : Meth (List α) β) (m : List α) (Q : β → List α → Prop) : Prop :=
  match p m with
  | (.ok b, m') => I m' ∧ Q b m'
  | (.throw s, m') => I m' ∧ ∃ x y, cmp x y = .throw s
  | (.ub k, m') => I m' ∧ ∃ x y, cmp x y = .ub k
  | (.fuel, m') => I m' ∧ ∃ x y, cmp x y = .fuel

theorem Runs.bind {β γ : Type} {I : List α → Prop} {p : Meth (List α) β} {f : β → Meth (List α) γ} {m : List α} {Q : β → List α → Prop}
    {R : γ → List α → Prop} (h : Runs cmp I p m Q) (h' : ∀ b m', I m' → Q b m' → Runs cmp I (f b) m' R) : Runs cmp I (p >>= f) m R := by
  unfold Runs at h
  change Runs cmp I (Meth.bind p f) m R
  unfold Runs Meth.bind
  rcases e : p m with ⟨o, m'⟩
  rw [e] at h
  cases o with
  | ok b => exact h' b m' h.1 h.2
  | throw s => exact h
  | ub k => exact h
  | fuel => exact h

theorem Runs.pure {β : Type} {I : List α → Prop} {b : β} {m : List α} {Q : β → List α → Prop} (hI : I m) (h : Q b m) :
    Runs cmp I (pure b : Meth (List α) β) m Q := ⟨hI, h⟩

theorem Runs.mono {β : Type} {I : List α → Prop} {p : Meth (List α) β} {m : List α} {Q R : β → List α → Prop} (h : Runs cmp I p m Q)
    (h' : ∀ b m', I m' → Q b m' → R b m') : Runs cmp I p m R := by
  unfold Runs at *
  rcases e : p m with ⟨o, m'⟩
  rw [e] at h
  cases o with
  | ok b => exact ⟨h.1, h' b m' h.1 h.2⟩
  | throw s => exact h
  | ub k => exact h
  | fuel => exact h

variable {N : Nat} {P : α → Prop} {m : List α}

theorem inv_set {i : Nat} {x : α} (h : Inv N P m) (hx : P x) : Inv N P (m.set i x) := by
  refine ⟨by simpa using h.1, fun y hy => ?_⟩
  rcases List.mem_or_eq_of_mem_set hy with hy | rfl
  · exact h.2 y hy
  · exact hx

theorem ask_runs (h : Inv N P m) (x y : α) : Runs cmp (Inv N P) (ask cmp x y) m (fun b m' => m' = m ∧ cmp x y = .ok b) := by
  unfold Runs ask
  simp only [Meth.lift_run]
  cases e : cmp x y with
  | ok b => exact ⟨h, rfl, rfl⟩
  | throw s => exact ⟨h, x, y, e⟩
  | ub k => exact ⟨h, x, y, e⟩
  | fuel => exact ⟨h, x, y, e⟩

theorem get_runs (h : Inv N P m) {i : Nat} (hi : i < N) : Runs cmp (Inv N P) (get i) m (fun x m' => m' = m ∧ P x ∧ m[i]? = some x) := by
  have hi' : i < m.length := by rw [h.1]; exact hi
  unfold Runs
  rw [get_ok (List.getElem?_eq_getElem hi')]
  exact ⟨h, rfl, h.2 _ (List.getElem_mem hi'), List.getElem?_eq_getElem hi'⟩

theorem put_runs (h : Inv N P m) {i : Nat} (hi : i < N) {x : α} (hx : P x) : Runs cmp (Inv N P) (put i x) m (fun _ m' => m' = m.set i x) := by
  unfold Runs
  rw [put_ok x (by rw [h.1]; exact hi)]
  exact ⟨inv_set h hx, rfl⟩

variable (hleft : ∀ x, P x → P (left x))
include hleft

theorem out_runs (h : Inv N P m) {i : Nat} (hi : i < N) :
    Runs cmp (Inv N P) (out left i) m (fun x m' => P x ∧ m[i]? = some x ∧ ∀ q, q ≠ i → m'[q]? = m[q]?) := by
  refine (get_runs h hi).bind ?_
  rintro x m' _ ⟨rfl, hx, e⟩
  refine (put_runs h hi (hleft x hx)).bind ?_
  rintro _ m'' hI rfl
  exact Runs.pure hI ⟨hx, e, fun q hq => List.getElem?_set_ne (Ne.symm hq)⟩

theorem move_runs (h : Inv N P m) {i j : Nat} (hi : i < N) (hj : j < N) :
    Runs cmp (Inv N P) (move left i j) m (fun _ m' => ∀ q, q ≠ i → q ≠ j → m'[q]? = m[q]?) := by
  refine (get_runs h hj).bind ?_
  rintro x m' _ ⟨rfl, hx, e⟩
  refine (put_runs h hi hx).bind ?_
  rintro _ m'' hI rfl
  refine (put_runs hI hj (hleft x hx)).mono ?_
  rintro _ m'' _ rfl q h1 h2
  rw [List.getElem?_set_ne (Ne.symm h2), List.getElem?_set_ne (Ne.symm h1)]

theorem moveRange_runs : ∀ (n p r : Nat) (m : List α), Inv N P m → p + n ≤ N → r + n ≤ N →
    Runs cmp (Inv N P) (moveRange left p n r) m (fun _ _ => True)
  | 0, _, _, _, h, _, _ => Runs.pure h trivial
  | n + 1, p, r, m, h, hp, hr => by
    rw [moveRange]
    exact (move_runs hleft h (by omega) (by omega)).bind (fun _ m' hI _ => moveRange_runs n (p + 1) (r + 1) m' hI (by omega) (by omega))

theorem moveRangeBack_runs (p : Nat) : ∀ (n r : Nat) (m : List α), Inv N P m → p + n ≤ N → r + n ≤ N →
    Runs cmp (Inv N P) (moveRangeBack left p n r) m (fun _ _ => True)
  | 0, _, _, h, _, _ => Runs.pure h trivial
  | n + 1, r, m, h, hp, hr => by
    rw [moveRangeBack]
    exact (move_runs hleft h (by omega) (by omega)).bind (fun _ m' hI _ => moveRangeBack_runs p n r m' hI (by omega) (by omega))

theorem linearInsert_runs (val f : α) (hval : P val) (hf : cmp val f = .ok false) (a : Nat) : ∀ (n : Nat) (m : List α), Inv N P m →
    m[a]? = some f → a + n + 1 < N → Runs cmp (Inv N P) (linearInsert left cmp val (a + n + 1)) m (fun _ _ => True) := by
  intro n
  induction n with
  | zero =>
    intro m h ha hN
    rw [Nat.add_zero, linearInsert]
    refine (get_runs h (by omega)).bind ?_
    rintro x m' _ ⟨rfl, hx, e⟩
    refine (ask_runs h val x).bind ?_
    rintro b m'' hI ⟨rfl, e'⟩
    obtain rfl : x = f := Option.some.inj (e.symm.trans ha)
    obtain rfl : b = false := by rw [hf] at e'; injection e' with e'; exact e'.symm
    exact (put_runs hI (by omega) hval).mono (fun _ _ _ _ => trivial)
  | succ n ih =>
    intro m h ha hN
    rw [show a + (n + 1) + 1 = (a + n + 1) + 1 by omega, linearInsert]
    refine (get_runs h (by omega)).bind ?_
    rintro x m' _ ⟨rfl, hx, e⟩
    refine (ask_runs h val x).bind ?_
    rintro b m'' hI ⟨rfl, e'⟩
    cases b with
    | false => exact (put_runs hI (by omega) hval).mono (fun _ _ _ _ => trivial)
    | true =>
      refine (move_runs hleft hI (by omega) (by omega)).bind ?_
      intro _ m' hI' hq
      exact ih m' hI' (by rw [hq a (by omega) (by omega)]; exact ha) (by omega)

theorem insertAt_runs {a i : Nat} (h : Inv N P m) (ha : a < i) (hi : i < N) :
    Runs cmp (Inv N P) (insertAt left cmp a i) m (fun _ _ => True) := by
  rw [insertAt]
  refine (get_runs h hi).bind ?_
  rintro x m' _ ⟨rfl, hx, ex⟩
  refine (get_runs h (by omega : a < N)).bind ?_
  rintro f m' _ ⟨rfl, hf, ef⟩
  refine (ask_runs h x f).bind ?_
  rintro b m'' hI ⟨rfl, e'⟩
  cases b with
  | true =>
    refine (out_runs hleft hI hi).bind ?_
    rintro val m' hI' ⟨hval, _, _⟩
    refine (moveRangeBack_runs hleft a (i - a) (a + 1) m' hI' (by omega) (by omega)).bind ?_
    intro _ m'' hI'' _
    exact (put_runs hI'' (by omega) hval).mono (fun _ _ _ _ => trivial)
  | false =>
    refine (out_runs hleft hI hi).bind ?_
    rintro val m' hI' ⟨hval, ev, hq⟩
    obtain rfl : x = val := Option.some.inj (ex.symm.trans ev)
    have := linearInsert_runs (cmp := cmp) hleft x f hval e' a (i - a - 1) m' hI' (by rw [hq a (by omega)]; exact ef) (by omega)
    rwa [show a + (i - a - 1) + 1 = i by omega] at this

theorem insertionLoop_runs (a : Nat) : ∀ (n i : Nat) (m : List α), Inv N P m → a < i → i + n ≤ N →
    Runs cmp (Inv N P) (insertionLoop left cmp a n i) m (fun _ _ => True)
  | 0, _, _, h, _, _ => Runs.pure h trivial
  | n + 1, i, m, h, ha, hi => by
    rw [insertionLoop]
    exact (insertAt_runs hleft h ha (by omega)).bind (fun _ m' hI _ => insertionLoop_runs a n (i + 1) m' hI (by omega) (by omega))

theorem insertionSort_runs {a b : Nat} (h : Inv N P m) (hb : b ≤ N) : Runs cmp (Inv N P) (insertionSort left cmp a b) m (fun _ _ => True) := by
  rw [insertionSort]
  by_cases hab : b - a - 1 = 0
  · rw [hab]; exact Runs.pure h trivial
  · exact insertionLoop_runs hleft a _ _ m h (by omega) (by omega)

theorem chunkSort_runs : ∀ (k a b : Nat) (m : List α), Inv N P m → b ≤ N → b - a < k →
    Runs cmp (Inv N P) (chunkSort left cmp k a b) m (fun _ _ => True)
  | 0, _, _, _, _, _, hk => by omega
  | k + 1, a, b, m, h, hb, hk => by
    rw [chunkSort]
    split
    · exact (insertionSort_runs hleft h (by omega)).bind (fun _ m' hI _ => chunkSort_runs k (a + 7) b m' hI hb (by omega))
    · exact insertionSort_runs hleft h hb

theorem mergeInto_runs (rest : Bool) : ∀ (k p₁ e₁ p₂ e₂ r : Nat) (m : List α), Inv N P m → p₁ ≤ e₁ → p₂ ≤ e₂ → e₁ ≤ N → e₂ ≤ N →
    r + (e₁ - p₁) + (e₂ - p₂) ≤ N → (e₁ - p₁) + (e₂ - p₂) < k →
    Runs cmp (Inv N P) (mergeInto left cmp rest k p₁ e₁ p₂ e₂ r) m (fun _ _ => True)
  | 0, _, _, _, _, _, _, _, _, _, _, _, _, hk => by omega
  | k + 1, p₁, e₁, p₂, e₂, r, m, h, h₁, h₂, n₁, n₂, hr, hk => by
    rw [mergeInto]
    split
    · refine (get_runs h (by omega)).bind ?_
      rintro y m' _ ⟨rfl, hy, _⟩
      refine (get_runs h (by omega)).bind ?_
      rintro x m' _ ⟨rfl, hx, _⟩
      refine (ask_runs h y x).bind ?_
      rintro b m'' hI ⟨rfl, e'⟩
      cases b with
      | true => exact (move_runs hleft hI (by omega) (by omega)).bind (fun _ m' hI' _ =>
          mergeInto_runs rest k p₁ e₁ (p₂ + 1) e₂ (r + 1) m' hI' h₁ (by omega) n₁ n₂ (by omega) (by omega))
      | false => exact (move_runs hleft hI (by omega) (by omega)).bind (fun _ m' hI' _ =>
          mergeInto_runs rest k (p₁ + 1) e₁ p₂ e₂ (r + 1) m' hI' (by omega) h₂ n₁ n₂ (by omega) (by omega))
    · refine (moveRange_runs hleft (e₁ - p₁) p₁ r m h (by omega) (by omega)).bind ?_
      intro _ m' hI _
      split
      · exact moveRange_runs hleft (e₂ - p₂) p₂ _ m' hI (by omega) (by omega)
      · exact Runs.pure hI trivial

theorem mergePass_runs (s : Nat) (hs : 0 < s) : ∀ (k a b r : Nat) (m : List α), Inv N P m → a ≤ b → b ≤ N → r + (b - a) ≤ N → b - a < k →
    Runs cmp (Inv N P) (mergePass left cmp s k a b r) m (fun _ _ => True)
  | 0, _, _, _, _, _, _, _, _, hk => by omega
  | k + 1, a, b, r, m, h, hab, hb, hr, hk => by
    rw [mergePass]
    split
    · refine (mergeInto_runs hleft true (2 * s + 1) a (a + s) (a + s) (a + 2 * s) r m h (by omega) (by omega) (by omega) (by omega) (by omega)
        (by omega)).bind ?_
      intro _ m' hI _
      exact mergePass_runs s hs k (a + 2 * s) b (r + 2 * s) m' hI (by omega) hb (by omega) (by omega)
    · exact mergeInto_runs hleft true (b - a + 1) a (a + min (b - a) s) (a + min (b - a) s) b r m h (by omega) (by omega) (by omega) (by omega)
        (by omega) (by omega)

theorem mergeLoop_runs {a b buf : Nat} (hab : a ≤ b) (hb : b ≤ N) (hbuf : buf + (b - a) ≤ N) : ∀ (n s : Nat) (m : List α), Inv N P m → 0 < s →
    b - a < n + s → Runs cmp (Inv N P) (mergeLoop left cmp a b buf (n + 1) s) m (fun _ _ => True) := by
  intro n
  induction n with
  | zero => intro s m h hs hk; rw [mergeLoop, if_neg (by omega)]; exact Runs.pure h trivial
  | succ n ih =>
    intro s m h hs hk
    rw [mergeLoop]
    split
    · refine (mergePass_runs hleft s hs (b - a + 1) a b buf m h hab hb hbuf (by omega)).bind ?_
      intro _ m' hI _
      refine (mergePass_runs hleft (2 * s) (by omega) (b - a + 1) buf (buf + (b - a)) a m' hI (by omega) (by omega) (by omega) (by omega)).bind ?_
      intro _ m'' hI' _
      exact ih (4 * s) m'' hI' (by omega) (by omega)
    · exact Runs.pure h trivial

theorem mergeSort_runs {a b buf : Nat} (h : Inv N P m) (hab : a ≤ b) (hb : b ≤ N) (hbuf : buf + (b - a) ≤ N) :
    Runs cmp (Inv N P) (mergeSort left cmp a b buf) m (fun _ _ => True) := by
  rw [mergeSort]
  exact (chunkSort_runs hleft (b - a + 1) a b m h hb (by omega)).bind (fun _ m' hI _ =>
    mergeLoop_runs hleft hab hb hbuf (b - a) 7 m' hI (by omega) (by omega))

theorem mergeBack_runs {a buf : Nat} : ∀ (k n₁ n₂ r : Nat) (m : List α), Inv N P m → 0 < n₁ → 0 < n₂ → n₁ + n₂ ≤ r → r ≤ N → a + n₁ ≤ N →
    buf + n₂ ≤ N → n₁ + n₂ ≤ k → Runs cmp (Inv N P) (mergeBack left cmp a buf k n₁ n₂ r) m (fun _ _ => True)
  | 0, _, _, _, _, _, _, _, _, _, _, _, hk => by omega
  | k + 1, n₁, n₂, r, m, h, h₁, h₂, hr, hN, ha, hb, hk => by
    rw [mergeBack]
    refine (get_runs h (by omega)).bind ?_
    rintro y m' _ ⟨rfl, hy, _⟩
    refine (get_runs h (by omega)).bind ?_
    rintro x m' _ ⟨rfl, hx, _⟩
    refine (ask_runs h y x).bind ?_
    rintro b m'' hI ⟨rfl, e'⟩
    cases b with
    | true =>
      refine (move_runs hleft hI (by omega) (by omega)).bind ?_
      intro _ m' hI' _
      split
      · exact moveRangeBack_runs hleft buf n₂ _ m' hI' (by omega) (by omega)
      · exact mergeBack_runs k (n₁ - 1) n₂ (r - 1) m' hI' (by omega) h₂ (by omega) (by omega) (by omega) (by omega) (by omega)
    | false =>
      refine (move_runs hleft hI (by omega) (by omega)).bind ?_
      intro _ m' hI' _
      split
      · exact Runs.pure hI' trivial
      · exact mergeBack_runs k n₁ (n₂ - 1) (r - 1) m' hI' h₁ (by omega) (by omega) (by omega) (by omega) (by omega) (by omega)

theorem halves_runs {n : Nat} (h : Inv N P m) (hN : n + (n + 1) / 2 ≤ N) : Runs cmp (Inv N P) (halves left cmp n) m (fun _ _ => True) := by
  rw [halves]
  refine (mergeSort_runs hleft h (by omega) (by omega) (by omega)).bind ?_
  intro _ m₁ h₁ _
  refine (mergeSort_runs hleft h₁ (by omega) (by omega) (by omega)).bind ?_
  intro _ m₂ h₂ _
  rw [mergeHalves]
  split
  · refine (moveRange_runs hleft _ 0 n m₂ h₂ (by omega) (by omega)).bind ?_
    intro _ m₃ h₃ _
    exact mergeInto_runs hleft false _ _ _ _ _ _ m₃ h₃ (by omega) (by omega) (by omega) (by omega) (by omega) (by omega)
  · refine (moveRange_runs hleft _ ((n + 1) / 2) n m₂ h₂ (by omega) (by omega)).bind ?_
    intro _ m₃ h₃ _
    split
    · exact moveRangeBack_runs hleft _ _ _ m₃ h₃ (by omega) (by omega)
    · split
      · exact Runs.pure h₃ trivial
      · exact mergeBack_runs hleft (n + 1) _ _ n m₃ h₃ (by omega) (by omega) (by omega) (by omega) (by omega) (by omega) (by omega)

end StableSort
end Pyincpp
