import Verif.Proof.SortMemoryRun
import Verif.Proof.SortMemorySafe

/-! # C117: sorting when there is less memory for the buffer -/

namespace Pyincpp
namespace StableSort

variable {α : Type} (left : α → α) {c : α → α → Bool}

/-- **C117** For a comparator that answers, `sort` returns whatever memory there is, and keeps the elements. -/
theorem C117_any (c : α → α → Bool) (size : Nat) (v : List α) : ∃ r, runMem left (answers c) size v = (.ok (), r) ∧ r.Perm v := by
  obtain ⟨r, e, g, -⟩ := runMem_ok (left := left) (c := c) size v
  exact ⟨r, e, g⟩

/-- **C117** For a strict weak order the result is the stable arrangement of C38, whatever memory there is. -/
theorem C117_order (h : StrictWeak c) (size : Nat) (v : List α) : runMem left (answers c) size v = Lst.sort c v := by
  obtain ⟨r, e, g1, g2⟩ := runMem_ok (left := left) (c := c) size v
  rw [e]
  exact ((C38_list_sort_unique v r c h).mpr ⟨g1, (g2 h).1, (g2 h).2⟩).symm

/-- **C117** With memory for half the elements the steps are those of C114. -/
theorem C117_enough (cmp : α → α → Res Bool) (size : Nat) (v : List α) (h : (v.length + 1) / 2 ≤ size) : runMem left cmp size v = run left cmp v := by
  rcases v with _ | ⟨x, t⟩
  · rfl
  · simp only [runMem]; rw [if_pos h]

/-- Pairs compared by the first component: sixteen of them, without memory, with memory for one, and for three. -/
def pairs : List (Int × Int) := [(2, 0), (1, 1), (2, 2), (0, 3), (1, 4), (2, 5), (0, 6), (1, 7), (2, 8), (0, 9), (1, 10), (0, 11), (1, 12), (2, 13), (0, 14),
  (1, 15)]

def pairsSorted : List (Int × Int) := [(0, 3), (0, 6), (0, 9), (0, 11), (0, 14), (1, 1), (1, 4), (1, 7), (1, 10), (1, 12), (1, 15), (2, 0), (2, 2), (2, 5),
  (2, 8), (2, 13)]

example : runMem (fun _ => (-1, -1)) (answers fun a b : Int × Int => decide (a.1 < b.1)) 0 pairs = (.ok (), pairsSorted) := by decide +kernel

example : runMem (fun _ => (-1, -1)) (answers fun a b : Int × Int => decide (a.1 < b.1)) 1 pairs = (.ok (), pairsSorted) := by decide +kernel

example : runMem (fun _ => (-1, -1)) (answers fun a b : Int × Int => decide (a.1 < b.1)) 3 pairs = (.ok (), pairsSorted) := by decide +kernel

example (size : Nat) : runMem (fun _ => (-1, -1)) (answers fun a b : Int × Int => decide (a.1 < b.1)) size pairs
    = Lst.sort (fun a b : Int × Int => decide (a.1 < b.1)) pairs :=
  C117_order _ ⟨fun a => by simp, fun a b c h1 h2 => by simp at *; omega, fun a b c h1 h2 h3 h4 => by simp at *; omega⟩ _ _

example : runMem (fun _ => 0) (answers fun a b : Int => decide (a < b)) 5 [3, 1, 2] = run (fun _ => 0) (answers fun a b : Int => decide (a < b)) [3, 1, 2] :=
  C117_enough _ _ _ _ (by decide)

/-- A comparator that is no order: without memory the elements are still kept. -/
example : ∃ r, runMem (fun _ => 0) (answers fun _ _ : Int => true) 0 [3, 1, 2] = (.ok (), r) ∧ r.Perm [3, 1, 2] := C117_any _ _ _ _

/-- **C117** The result for a comparator that is no order depends on the memory: here `0`, `1` and `2`
are each said to be before the next one, and `2` before `0`. -/
theorem C117_memory_not : ∃ (c : Int → Int → Bool) (v : List Int), runMem (fun _ => 0) (answers c) 0 v ≠ runMem (fun _ => 0) (answers c) v.length v := by
  refine ⟨fun a b => decide ((b - a) % 3 = 1), [2, 1, 0], ?_⟩
  decide +kernel

/-- **C117** Whatever the comparator does and whatever memory there is, `sort` stays in its memory and ends; if it does not return, the comparator did
not return for some elements. The list keeps its length, and each element is one of the elements, or what moving leaves of one. -/
theorem C117_safe (cmp : α → α → Res Bool) (size : Nat) (v : List α) :
    (runMem left cmp size v).2.length = v.length ∧ (∀ x ∈ (runMem left cmp size v).2, From left v x) ∧
      match (runMem left cmp size v).1 with
      | .ok _ => True
      | .throw s => ∃ x y, cmp x y = .throw s
      | .ub k => ∃ x y, cmp x y = .ub k
      | .fuel => ∃ x y, cmp x y = .fuel := by
  rcases v with _ | ⟨x, t⟩
  · exact ⟨rfl, by simp [runMem], trivial⟩
  simp only [runMem]
  generalize hv : x :: t = v
  by_cases h1 : (v.length + 1) / 2 ≤ size
  · rw [if_pos h1]
    exact C114_safe_partial left cmp v
  rw [if_neg h1]
  by_cases h2 : size = 0
  · rw [if_pos h2]
    have hR := sortPlain_runs (left := left) (cmp := cmp) (P := From left v) (fun y hy => .left y hy) (v.length + 1) 0 v.length v
      ⟨rfl, fun y hy => .mem y hy⟩ (by omega) (by omega)
    unfold Runs at hR
    rcases e : sortPlain left cmp (v.length + 1) 0 v.length v with ⟨o, m⟩
    rw [e] at hR
    have hm : Inv v.length (From left v) m := by cases o <;> exact hR.1
    refine ⟨hm.1, hm.2, ?_⟩
    cases o with
    | ok _ => trivial
    | throw s => exact hR.2
    | ub k => exact hR.2
    | fuel => exact hR.2
  · rw [if_neg h2]
    have hI : Inv (v.length + size) (From left v) (v ++ List.replicate size (left x)) := by
      refine ⟨by simp, fun y hy => ?_⟩
      rcases List.mem_append.mp hy with hy | hy
      · exact .mem y hy
      · rw [(List.mem_replicate.mp hy).2]; exact .left x (.mem x (by rw [← hv]; simp))
    have hR := sortResize_runs (left := left) (cmp := cmp) (fun y hy => .left y hy) (by omega : 0 < size) (Nat.le_refl _) (v.length + 1) 0 v.length _ hI
      (by omega) (by omega)
    unfold Runs at hR
    rcases e : sortResize left cmp v.length size (v.length + 1) 0 v.length (v ++ List.replicate size (left x)) with ⟨o, m⟩
    rw [e] at hR
    have hm : Inv (v.length + size) (From left v) m := by cases o <;> exact hR.1
    refine ⟨by rw [List.length_take, hm.1]; omega, fun y hy => hm.2 y (List.mem_of_mem_take hy), ?_⟩
    cases o with
    | ok _ => trivial
    | throw s => exact hR.2
    | ub k => exact hR.2
    | fuel => exact hR.2

/-- The comparator does not compare `0`: without memory, `0` stays. -/
example : runMem (fun _ => -1) (fun a b : Int => if a = 0 ∨ b = 0 then .throw "x" else .ok (decide (a < b))) 0 [7, 5, 0] = (.throw "x", [5, 7, 0]) := by
  decide +kernel

end StableSort
end Pyincpp
