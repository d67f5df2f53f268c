import Verif.Proof.StableSortRun
import Verif.Proof.StableSortSafe
import Verif.Props.ChainList

/-! # C114: `sort` with any comparator -/

namespace Pyincpp
namespace StableSort

variable {α : Type} (left : α → α) {c : α → α → Bool}

theorem merged_perm (X Y : List α) : (merged c X Y).Perm (X ++ Y) := List.merge_perm_append _

theorem mergedBack_perm (X Y : List α) : (mergedBack c X Y).Perm (X ++ Y) := by
  refine (List.reverse_perm _).trans ((List.merge_perm_append _).trans ?_)
  exact ((List.reverse_perm Y).append (List.reverse_perm X)).trans List.perm_append_comm

theorem inserted_perm (P : List α) (x : α) : (inserted c P x).Perm (P ++ [x]) := by
  rcases P with _ | ⟨f, P⟩
  · exact List.Perm.refl _
  · rw [inserted]
    split
    · exact (List.perm_append_singleton x (f :: P)).symm
    · exact mergedBack_perm _ _

theorem kept_perm : Kept c (fun L R : List α => R.Perm L) where
  nil := List.Perm.refl _
  ins _ P x h := (inserted_perm P x).trans (h.append_right [x])
  merge _ X _ Y h h' := (merged_perm X Y).trans (h.append h')
  back _ X _ Y h h' := (mergedBack_perm X Y).trans (h.append h')
  len _ _ h := h.length_eq

/-- **C114** For every comparator, an order or not, `sort` returns, without leaving its memory, and the list has the same elements as before. -/
theorem C114_any (c : α → α → Bool) (v : List α) : ∃ r, run left (answers c) v = (.ok (), r) ∧ r.Perm v := run_ok left kept_perm v

/-- `<=` is not a strict order; the elements are all there, equal ones may change places. -/
example : ∃ r, run (fun _ => (0, 0)) (answers fun a b : Int × Int => decide (a.1 ≤ b.1)) [(2, 1), (1, 2), (2, 3)] = (.ok (), r) ∧
    r.Perm [(2, 1), (1, 2), (2, 3)] := C114_any _ _ _

example : run (fun _ => (0, 0)) (answers fun a b : Int × Int => decide (a.1 ≤ b.1)) [(2, 1), (1, 2), (2, 3)] = (.ok (), [(1, 2), (2, 3), (2, 1)]) := by
  decide +kernel

/-! ## Orders -/

abbrev Sorted (c : α → α → Bool) (X : List α) : Prop := X.Pairwise (fun a b => c b a = false)

theorem flip_weak (h : StrictWeak c) : StrictWeak (fun a b => c b a) where
  irrefl a := h.irrefl a
  trans a b d h1 h2 := h.trans d b a h2 h1
  incomp a b d h1 h2 h3 h4 := by
    have := h.incomp a b d h2 h1 h4 h3
    exact ⟨this.2, this.1⟩

theorem lt_of_lt_of_not {x f y : α} (h : StrictWeak c) (h1 : c x f = true) (h2 : c y f = false) : c x y = true := by
  by_contra h3
  have := Lst.StrictWeak.le_trans h f y x (by simpa using h2) (by simpa using h3)
  simp [h1] at this

theorem filter_merged (h : StrictWeak c) (e : α) : ∀ (X Y : List α), Sorted c X → Sorted c Y →
    (merged c X Y).filter (equivBy c e) = X.filter (equivBy c e) ++ Y.filter (equivBy c e)
  | [], Y, _, _ => by simp [merged]
  | x :: X, [], _, _ => by simp [merged]
  | x :: X, y :: Y, hX, hY => by
    by_cases hc : c y x = true
    · rw [merged, List.cons_merge_cons_neg _ _ _ (by simp [hc]), List.filter_cons]
      have ih := filter_merged h e (x :: X) Y hX hY.of_cons
      by_cases he : equivBy c e y = true
      · have hnil : (x :: X).filter (equivBy c e) = [] := by
          rw [List.filter_eq_nil_iff]
          intro z hz
          have hyz : c y z = true := by
            rcases List.mem_cons.mp hz with rfl | hz
            · exact hc
            · exact lt_of_lt_of_not h hc ((List.pairwise_cons.mp hX).1 z hz)
          intro hez
          simp only [equivBy, Bool.and_eq_true, Bool.not_eq_true'] at he hez
          have := (h.incomp y e z he.2 he.1 hez.1 hez.2).1
          simp [hyz] at this
        rw [if_pos he, ih, hnil, List.filter_cons, if_pos he]; simp
      · rw [if_neg he, ih, List.filter_cons (x := y), if_neg he]
    · rw [merged, List.cons_merge_cons_pos _ _ _ (by simp [hc]), List.filter_cons]
      have ih := filter_merged h e X (y :: Y) hX.of_cons hY
      rw [merged] at ih
      rw [ih, List.filter_cons (x := x)]
      split <;> simp
  termination_by X Y => X.length + Y.length

theorem sorted_merged (h : StrictWeak c) (X Y : List α) (hX : Sorted c X) (hY : Sorted c Y) : Sorted c (merged c X Y) := by
  have := List.pairwise_merge (le := fun a b => !(c b a)) (fun a b d => Lst.StrictWeak.le_trans h a b d) (fun a b => Lst.StrictWeak.total h a b) X Y
    (hX.imp (by intro a b hab; simpa using hab)) (hY.imp (by intro a b hab; simpa using hab))
  exact this.imp (by intro a b hab; simpa using hab)

theorem equiv_flip (e : α) : equivBy (fun a b => c b a) e = equivBy c e := by
  funext x; simp [equivBy, Bool.and_comm]

theorem sorted_mergedBack (h : StrictWeak c) (X Y : List α) (hX : Sorted c X) (hY : Sorted c Y) : Sorted c (mergedBack c X Y) := by
  rw [Sorted, mergedBack, List.pairwise_reverse]
  exact sorted_merged (flip_weak h) Y.reverse X.reverse (List.pairwise_reverse.mpr hY) (List.pairwise_reverse.mpr hX)

theorem filter_mergedBack (h : StrictWeak c) (e : α) (X Y : List α) (hX : Sorted c X) (hY : Sorted c Y) :
    (mergedBack c X Y).filter (equivBy c e) = X.filter (equivBy c e) ++ Y.filter (equivBy c e) := by
  have := filter_merged (flip_weak h) e Y.reverse X.reverse (List.pairwise_reverse.mpr hY) (List.pairwise_reverse.mpr hX)
  rw [equiv_flip] at this
  rw [mergedBack, List.filter_reverse]
  simp only [merged] at this
  rw [this]; simp

theorem mergedBack_least (x : α) (P : List α) (h : ∀ y ∈ P, c x y = true) : mergedBack c P [x] = x :: P := by
  have : ∀ Q : List α, (∀ y ∈ Q, c x y = true) → [x].merge Q (fun y x => !c y x) = Q ++ [x] := by
    intro Q
    induction Q with
    | nil => simp
    | cons y Q ih =>
      intro hq
      rw [List.cons_merge_cons_neg _ _ _ (by simp [hq y (by simp)]), ih (fun z hz => hq z (by simp [hz]))]; rfl
  have := this P.reverse (fun y hy => h y (by simpa using hy))
  rw [mergedBack, List.reverse_singleton, this]; simp

theorem inserted_eq (h : StrictWeak c) (P : List α) (x : α) (hP : Sorted c P) : inserted c P x = mergedBack c P [x] := by
  rcases P with _ | ⟨f, P⟩
  · simp [inserted, mergedBack]
  · rw [inserted]
    split
    · next hc =>
      rw [mergedBack_least]
      intro y hy
      rcases List.mem_cons.mp hy with rfl | hy
      · exact hc
      · exact lt_of_lt_of_not h hc ((List.pairwise_cons.mp hP).1 y hy)
    · rfl

theorem kept_stable (h : StrictWeak c) :
    Kept c (fun L R : List α => R.Perm L ∧ Sorted c R ∧ ∀ e, R.filter (equivBy c e) = L.filter (equivBy c e)) where
  nil := ⟨List.Perm.refl _, List.Pairwise.nil, fun _ => rfl⟩
  ins L P x hG := by
    refine ⟨kept_perm.ins L P x hG.1, ?_, fun e => ?_⟩
    · rw [inserted_eq h P x hG.2.1]; exact sorted_mergedBack h P [x] hG.2.1 (by simp)
    · rw [inserted_eq h P x hG.2.1, filter_mergedBack h e P [x] hG.2.1 (by simp), hG.2.2 e, List.filter_append]
  merge L X L' Y hG hG' := ⟨kept_perm.merge L X L' Y hG.1 hG'.1, sorted_merged h X Y hG.2.1 hG'.2.1, fun e => by
    rw [filter_merged h e X Y hG.2.1 hG'.2.1, hG.2.2 e, hG'.2.2 e, List.filter_append]⟩
  back L X L' Y hG hG' := ⟨kept_perm.back L X L' Y hG.1 hG'.1, sorted_mergedBack h X Y hG.2.1 hG'.2.1, fun e => by
    rw [filter_mergedBack h e X Y hG.2.1 hG'.2.1, hG.2.2 e, hG'.2.2 e, List.filter_append]⟩
  len _ _ hG := hG.1.length_eq

/-- **C114** For a strict weak order the steps give what Model/List.lean gives, which is the stable arrangement of C38, whatever moving leaves of an
element. -/
theorem C114_order (h : StrictWeak c) (v : List α) : run left (answers c) v = Lst.sort c v := by
  obtain ⟨r, e, g1, g2, g3⟩ := run_ok left (kept_stable h) v
  rw [e]
  exact ((C38_list_sort_unique v r c h).mpr ⟨g1, g2, g3⟩).symm

example : run (fun _ => (0, 0)) (answers fun a b : Int × Int => decide (a.1 < b.1)) [(2, 1), (1, 2), (2, 3), (1, 4)]
    = Lst.sort (fun a b : Int × Int => decide (a.1 < b.1)) [(2, 1), (1, 2), (2, 3), (1, 4)] :=
  C114_order _ ⟨fun a => by simp, fun a b c h1 h2 => by simp at *; omega, fun a b c h1 h2 h3 h4 => by simp at *; omega⟩ _

example : run (fun _ => (0, 0)) (answers fun a b : Int × Int => decide (a.1 < b.1)) [(2, 1), (1, 2), (2, 3), (1, 4)]
    = (.ok (), [(1, 2), (1, 4), (2, 1), (2, 3)]) := by decide +kernel

/-! ## Comparators that throw or are undefined -/

/-- What moving leaves of an element, any number of times. -/
inductive From (left : α → α) (v : List α) : α → Prop
  | mem (x) : x ∈ v → From left v x
  | left (x) : From left v x → From left v (left x)

/-- **C114** Whatever the comparator does, `sort` stays in its memory and ends; if it does not return, the comparator did not return for some
elements. The list keeps its length, and each element is one of the elements, or what moving leaves of one. -/
theorem C114_safe_partial (cmp : α → α → Res Bool) (v : List α) :
    (run left cmp v).2.length = v.length ∧ (∀ x ∈ (run left cmp v).2, From left v x) ∧
      match (run left cmp v).1 with
      | .ok _ => True
      | .throw s => ∃ x y, cmp x y = .throw s
      | .ub k => ∃ x y, cmp x y = .ub k
      | .fuel => ∃ x y, cmp x y = .fuel := by
  rcases v with _ | ⟨x, t⟩
  · exact ⟨rfl, by simp [run], trivial⟩
  simp only [run]
  generalize hv : x :: t = v
  have hI : Inv (v.length + (v.length + 1) / 2) (From left v) (v ++ List.replicate ((v.length + 1) / 2) (left x)) := by
    refine ⟨by simp, fun y hy => ?_⟩
    rcases List.mem_append.mp hy with hy | hy
    · exact .mem y hy
    · rw [(List.mem_replicate.mp hy).2]; exact .left x (.mem x (by rw [← hv]; simp))
  have hR := halves_runs (left := left) (cmp := cmp) (n := v.length) (fun y hy => .left y hy) hI (Nat.le_refl _)
  unfold Runs at hR
  rcases e : halves left cmp v.length (v ++ List.replicate ((v.length + 1) / 2) (left x)) with ⟨o, m⟩
  rw [e] at hR
  have hm : Inv (v.length + (v.length + 1) / 2) (From left v) m := by cases o <;> exact hR.1
  refine ⟨by rw [List.length_take, hm.1]; omega, fun y hy => hm.2 y (List.mem_of_mem_take hy), ?_⟩
  cases o with
  | ok _ => trivial
  | throw s => exact hR.2
  | ub k => exact hR.2
  | fuel => exact hR.2

/-- The comparator does not compare `0`: the exception comes when the halves are merged, and `0` is lost. -/
example : run (fun _ => -1) (fun a b : Int => if a = 0 ∨ b = 0 then .throw "x" else .ok (decide (a < b))) [7, 5, 0] = (.throw "x", [5, 7, -1]) := by
  decide +kernel

/-- **C114** Two elements and a comparator that throws: the exception leaves `sort`, and the first element is gone. -/
theorem C114_two (cmp : α → α → Res Bool) (x y : α) (s : String) (h : cmp y x = .throw s) : run left cmp [x, y] = (.throw s, [left x, y]) := by
  have pb : ∀ f : Unit → Meth (List α) Unit, (pure () >>= f) = f () := fun _ => rfl
  have e1 : ∀ a : Nat, mergeSort left cmp a (a + 1) 2 = pure () := by
    intro a
    rw [mergeSort, show a + 1 - a = 1 by omega, chunkSort, if_neg (by omega), insertionSort, show a + 1 - a - 1 = 0 by omega, insertionLoop,
      pb, mergeLoop, if_neg (by omega)]
  have e2 : halves left cmp 2 = (do
      moveRange left 0 1 2
      mergeInto left cmp false 3 2 3 1 2 0) := by
    rw [halves]
    simp only [show (2 + 1) / 2 = 1 from rfl]
    rw [e1 0, e1 1, pb, pb, mergeHalves, if_pos (by omega)]
  have e3 : moveRange left 0 1 2 [x, y, left x] = (.ok (), [left x, y, x]) := rfl
  have e4 : mergeInto left cmp false 3 2 3 1 2 0 [left x, y, x] = (.throw s, [left x, y, x]) := by
    rw [mergeInto, if_pos (by omega), bind_ok (get_ok (by rfl)), bind_ok (get_ok (by rfl))]
    show Meth.bind (ask cmp y x) _ _ = _
    rw [Meth.bind, ask, h]; rfl
  have e5 : [x, y] ++ List.replicate (([x, y].length + 1) / 2) (left x) = [x, y, left x] := by simp
  simp only [run, e5]
  rw [show [x, y].length = 2 from rfl]
  rw [e2, bind_ok e3, e4]; rfl

/-- **C114** A comparator that throws can lose an element: here `5` (moving a number of the library leaves `0`). -/
theorem C114_throw_not : ∃ (v : List Int) (cmp : Int → Int → Res Bool), (run (fun _ => 0) cmp v).1 = .throw "x" ∧ ¬ (run (fun _ => 0) cmp v).2.Perm v := by
  refine ⟨[5, 3], fun _ _ => .throw "x", ?_, ?_⟩
  · rw [C114_two _ _ _ _ _ rfl]
  · rw [C114_two _ _ _ _ _ rfl]; decide

end StableSort
end Pyincpp
