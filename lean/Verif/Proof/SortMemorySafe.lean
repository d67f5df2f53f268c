import Verif.Model.SortMemory
import Verif.Proof.StableSortSafe
import Verif.Props.Moves

/-! # `std::stable_sort` with less memory for the buffer, and a comparator that may throw or be undefined -/

namespace Pyincpp
namespace StableSort

variable {α : Type} {left : α → α} {cmp : α → α → Res Bool} {N : Nat} {P : α → Prop} {m : List α}

theorem rotatePlaces_runs {i l₁ l₂ : Nat} (h : Inv N P m) (hN : i + l₁ + l₂ ≤ N) :
    Runs cmp (Inv N P) (rotatePlaces left i l₁ l₂) m (fun _ _ => True) := by
  have hl := h.1
  have hS : ((m.drop i).take (l₁ + l₂)).length = l₁ + l₂ := by rw [List.length_take, List.length_drop]; omega
  have hr := (Moves.C113_rotate left ((m.drop i).take (l₁ + l₂)) (k := l₁) (by omega)).1
  unfold Runs
  rw [rotatePlaces, Meth.get_bind, if_neg (by omega), hr]
  refine ⟨⟨?_, fun x hx => h.2 x ?_⟩, trivial⟩
  · simp only [List.length_append, List.length_take, List.length_drop]; omega
  · simp only [List.append_assoc, List.mem_append] at hx
    rcases hx with hx | hx | hx | hx
    · exact List.mem_of_mem_take hx
    · exact List.mem_of_mem_drop (List.mem_of_mem_take (List.mem_of_mem_drop hx))
    · exact List.mem_of_mem_drop (List.mem_of_mem_take (List.mem_of_mem_take hx))
    · exact List.mem_of_mem_drop hx

theorem bound_runs {go : α → Res Bool} (h : Inv N P m) (hgo : ∀ x, Runs cmp (Inv N P) (Meth.lift (go x)) m (fun _ m' => m' = m)) :
    ∀ (k first len : Nat), first + len ≤ N → len < k →
      Runs cmp (Inv N P) (bound go k first len) m (fun s m' => m' = m ∧ first ≤ s ∧ s ≤ first + len) := by
  intro k
  induction k with
  | zero => intro _ _ _ h; omega
  | succ k ih =>
    intro first len hN hk
    rw [bound]
    split
    · exact Runs.pure h ⟨rfl, by omega, by omega⟩
    · refine (get_runs h (by omega)).bind ?_
      rintro x m' _ ⟨rfl, _, _⟩
      refine (hgo x).bind ?_
      rintro b m'' _ rfl
      cases b with
      | true => exact (ih (first + len / 2 + 1) (len - len / 2 - 1) (by omega) (by omega)).mono (fun s m' _ hs => ⟨hs.1, by omega, by omega⟩)
      | false => exact (ih first (len / 2) (by omega) (by omega)).mono (fun s m' _ hs => ⟨hs.1, by omega, by omega⟩)

theorem cuts_runs {a l₁ l₂ : Nat} (h : Inv N P m) (hN : a + l₁ + l₂ ≤ N) (h₁ : 0 < l₁) (h₂ : 0 < l₂) (h₃ : l₁ + l₂ ≠ 2) :
    Runs cmp (Inv N P) (cuts cmp a l₁ l₂) m
      (fun d m' => m' = m ∧ d.1 ≤ l₁ ∧ d.2 ≤ l₂ ∧ 0 < d.1 + d.2 ∧ d.1 + d.2 < l₁ + l₂) := by
  rw [cuts]
  split
  · refine (get_runs h (by omega)).bind ?_
    rintro p m' _ ⟨rfl, _, _⟩
    refine (bound_runs (cmp := cmp) h (fun x => (ask_runs h x p).mono (fun _ _ _ q => q.1)) (l₂ + 1) (a + l₁) l₂ (by omega) (by omega)).bind ?_
    rintro s m'' _ ⟨rfl, _, _⟩
    exact Runs.pure h ⟨rfl, by dsimp only; omega, by dsimp only; omega, by dsimp only; omega, by dsimp only; omega⟩
  · refine (get_runs h (by omega)).bind ?_
    rintro p m' _ ⟨rfl, _, _⟩
    refine (bound_runs (cmp := cmp) h (fun x => ?_) (l₁ + 1) a l₁ (by omega) (by omega)).bind ?_
    · have := ask_runs (cmp := cmp) h p x
      unfold Runs ask at *
      simp only [Meth.lift_run] at *
      cases e : cmp p x with
      | ok b => exact ⟨h, rfl⟩
      | throw s => exact ⟨h, p, x, e⟩
      | ub k => exact ⟨h, p, x, e⟩
      | fuel => exact ⟨h, p, x, e⟩
    · rintro s m'' _ ⟨rfl, _, _⟩
      exact Runs.pure h ⟨rfl, by dsimp only; omega, by dsimp only; omega, by dsimp only; omega, by dsimp only; omega⟩

variable (hleft : ∀ x, P x → P (left x))
include hleft

theorem swapPlaces_runs {i j : Nat} (h : Inv N P m) (hi : i < N) (hj : j < N) :
    Runs cmp (Inv N P) (swapPlaces left i j) m (fun _ _ => True) := by
  rw [swapPlaces]
  refine (out_runs hleft h hi).bind ?_
  rintro t m₁ h₁ ⟨ht, _, _⟩
  refine (move_runs hleft h₁ hi hj).bind ?_
  intro _ m₂ h₂ _
  exact (put_runs h₂ hj ht).mono (fun _ _ _ _ => trivial)

theorem mergePlain_runs : ∀ (k a l₁ l₂ : Nat) (m : List α), Inv N P m → a + l₁ + l₂ ≤ N → l₁ + l₂ < k →
    Runs cmp (Inv N P) (mergePlain left cmp k a l₁ l₂) m (fun _ _ => True) := by
  intro k
  induction k with
  | zero => intro _ _ _ _ _ _ h; omega
  | succ k ih =>
    intro a l₁ l₂ m h hN hk
    rw [mergePlain]
    split
    · exact Runs.pure h trivial
    split
    · refine (get_runs h (by omega)).bind ?_
      rintro y m' _ ⟨rfl, _, _⟩
      refine (get_runs h (by omega)).bind ?_
      rintro x m' _ ⟨rfl, _, _⟩
      refine (ask_runs h y x).bind ?_
      rintro b m' hI ⟨rfl, _⟩
      split
      · exact swapPlaces_runs hleft h (by omega) (by omega)
      · exact Runs.pure h trivial
    · refine (cuts_runs h hN (by omega) (by omega) (by omega)).bind ?_
      rintro ⟨d₁, d₂⟩ m' _ ⟨rfl, b₁, b₂, b₃, b₄⟩
      dsimp only at *
      refine (rotatePlaces_runs h (by omega)).bind ?_
      intro _ m₁ h₁ _
      refine (ih a d₁ d₂ m₁ h₁ (by omega) (by omega)).bind ?_
      intro _ m₂ h₂ _
      exact ih (a + d₁ + d₂) (l₁ - d₁) (l₂ - d₂) m₂ h₂ (by omega) (by omega)

theorem sortPlain_runs : ∀ (k a n : Nat) (m : List α), Inv N P m → a + n ≤ N → n < k →
    Runs cmp (Inv N P) (sortPlain left cmp k a n) m (fun _ _ => True) := by
  intro k
  induction k with
  | zero => intro _ _ _ _ _ h; omega
  | succ k ih =>
    intro a n m h hN hk
    rw [sortPlain]
    split
    · exact insertionSort_runs hleft h hN
    · refine (ih a (n / 2) m h (by omega) (by omega)).bind ?_
      intro _ m₁ h₁ _
      refine (ih (a + n / 2) (n - n / 2) m₁ h₁ (by omega) (by omega)).bind ?_
      intro _ m₂ h₂ _
      exact mergePlain_runs hleft (n + 1) a (n / 2) (n - n / 2) m₂ h₂ (by omega) (by omega)

theorem rotateBuf_runs {buf size i l₁ l₂ : Nat} (h : Inv N P m) (hN : i + l₁ + l₂ ≤ N) (hb : buf + size ≤ N) :
    Runs cmp (Inv N P) (rotateBuf left buf size i l₁ l₂) m (fun _ _ => True) := by
  rw [rotateBuf]
  split
  · split
    · refine (moveRange_runs hleft l₂ (i + l₁) buf m h (by omega) (by omega)).bind ?_
      intro _ m₁ h₁ _
      refine (moveRangeBack_runs hleft i l₁ (i + l₂) m₁ h₁ (by omega) (by omega)).bind ?_
      intro _ m₂ h₂ _
      exact moveRange_runs hleft l₂ buf i m₂ h₂ (by omega) (by omega)
    · exact Runs.pure h trivial
  · split
    · split
      · refine (moveRange_runs hleft l₁ i buf m h (by omega) (by omega)).bind ?_
        intro _ m₁ h₁ _
        refine (moveRange_runs hleft l₂ (i + l₁) i m₁ h₁ (by omega) (by omega)).bind ?_
        intro _ m₂ h₂ _
        exact moveRangeBack_runs hleft buf l₁ (i + l₂) m₂ h₂ (by omega) (by omega)
      · exact Runs.pure h trivial
    · exact rotatePlaces_runs h hN

theorem mergeBuf_runs {buf size a l₁ l₂ : Nat} (h : Inv N P m) (hN : a + l₁ + l₂ ≤ N) (hs : l₁ ≤ size ∨ l₂ ≤ size) (hb : buf + size ≤ N) :
    Runs cmp (Inv N P) (mergeBuf left cmp buf a l₁ l₂) m (fun _ _ => True) := by
  rw [mergeBuf]
  split
  · refine (moveRange_runs hleft l₁ a buf m h (by omega) (by omega)).bind ?_
    intro _ m₁ h₁ _
    exact mergeInto_runs hleft false _ _ _ _ _ _ m₁ h₁ (by omega) (by omega) (by omega) (by omega) (by omega) (by omega)
  · refine (moveRange_runs hleft l₂ (a + l₁) buf m h (by omega) (by omega)).bind ?_
    intro _ m₁ h₁ _
    split
    · exact moveRangeBack_runs hleft buf l₂ (a + l₁) m₁ h₁ (by omega) (by omega)
    · split
      · exact Runs.pure h₁ trivial
      · exact mergeBack_runs hleft _ l₁ l₂ _ m₁ h₁ (by omega) (by omega) (by omega) (by omega) (by omega) (by omega) (by omega)

theorem mergeResize_runs {buf size : Nat} (hpos : 0 < size) (hb : buf + size ≤ N) : ∀ (k a l₁ l₂ : Nat) (m : List α), Inv N P m →
    a + l₁ + l₂ ≤ N → l₁ + l₂ < k → Runs cmp (Inv N P) (mergeResize left cmp buf size k a l₁ l₂) m (fun _ _ => True) := by
  intro k
  induction k with
  | zero => intro _ _ _ _ _ _ h; omega
  | succ k ih =>
    intro a l₁ l₂ m h hN hk
    rw [mergeResize]
    split
    · next hs => exact mergeBuf_runs hleft h hN hs hb
    · refine (cuts_runs h hN (by omega) (by omega) (by omega)).bind ?_
      rintro ⟨d₁, d₂⟩ m' _ ⟨rfl, b₁, b₂, b₃, b₄⟩
      dsimp only at *
      refine (rotateBuf_runs hleft h (by omega) hb).bind ?_
      intro _ m₁ h₁ _
      refine (ih a d₁ d₂ m₁ h₁ (by omega) (by omega)).bind ?_
      intro _ m₂ h₂ _
      exact ih (a + d₁ + d₂) (l₁ - d₁) (l₂ - d₂) m₂ h₂ (by omega) (by omega)

theorem sortBuf_runs {buf size a n : Nat} (h : Inv N P m) (hN : a + n ≤ N) (hs : (n + 1) / 2 ≤ size) (hb : buf + size ≤ N) :
    Runs cmp (Inv N P) (sortBuf left cmp buf a n) m (fun _ _ => True) := by
  rw [sortBuf]
  refine (mergeSort_runs hleft h (by omega) (by omega) (by omega)).bind ?_
  intro _ m₁ h₁ _
  refine (mergeSort_runs hleft h₁ (by omega) (by omega) (by omega)).bind ?_
  intro _ m₂ h₂ _
  exact mergeBuf_runs hleft h₂ (by omega) (Or.inl hs) hb

theorem sortResize_runs {buf size : Nat} (hpos : 0 < size) (hb : buf + size ≤ N) : ∀ (k a n : Nat) (m : List α), Inv N P m → a + n ≤ N → n < k →
    Runs cmp (Inv N P) (sortResize left cmp buf size k a n) m (fun _ _ => True) := by
  intro k
  induction k with
  | zero => intro _ _ _ _ _ h; omega
  | succ k ih =>
    intro a n m h hN hk
    rw [sortResize]
    split
    · refine (ih a ((n + 1) / 2) m h (by omega) (by omega)).bind ?_
      intro _ m₁ h₁ _
      refine (ih (a + (n + 1) / 2) (n - (n + 1) / 2) m₁ h₁ (by omega) (by omega)).bind ?_
      intro _ m₂ h₂ _
      exact mergeResize_runs hleft hpos hb (n + 1) a ((n + 1) / 2) (n - (n + 1) / 2) m₂ h₂ (by omega) (by omega)
    · exact sortBuf_runs hleft h hN (by omega) hb

end StableSort
end Pyincpp
