import Verif.Model.ListProgram
import Verif.Model.Deque
import Verif.Model.Dict

/-! # Operations that throw change nothing (C61): the containers -/

namespace Pyincpp

namespace NoEff
variable {σ α β : Type}

/-- If it throws, the object is as it was before. -/
def NoEffect (m : Meth σ α) : Prop := ∀ s e, (m s).1 = .throw e → (m s).2 = s

/-- It never changes the object. -/
def Reads (m : Meth σ α) : Prop := ∀ s, (m s).2 = s

/-- It never throws. -/
def Calm (m : Meth σ α) : Prop := ∀ s e, (m s).1 ≠ .throw e

theorem bind_run (m : Meth σ α) (f : α → Meth σ β) (s : σ) : (m >>= f) s = (match m s with
    | (.ok a, s') => f a s'
    | (.throw e, s') => (.throw e, s')
    | (.ub u, s') => (.ub u, s')
    | (.fuel, s') => (.fuel, s')) := rfl

theorem reads_get : Reads (Meth.get : Meth σ σ) := fun _ => rfl
theorem reads_lift (x : Res α) : Reads (Meth.lift x : Meth σ α) := fun _ => rfl
theorem reads_pure (a : α) : Reads (pure a : Meth σ α) := fun _ => rfl
theorem calm_set (s : σ) : Calm (Meth.set s) := fun _ _ h => nomatch h
theorem calm_pure (a : α) : Calm (pure a : Meth σ α) := fun _ _ h => nomatch h
theorem calm_get : Calm (Meth.get : Meth σ σ) := fun _ _ h => nomatch h

theorem noEffect_of_reads {m : Meth σ α} (h : Reads m) : NoEffect m := fun s _ _ => h s
theorem noEffect_of_calm {m : Meth σ α} (h : Calm m) : NoEffect m := fun s e he => absurd he (h s e)

theorem calm_lift {x : Res α} (h : ∀ e, x ≠ .throw e) : Calm (Meth.lift x : Meth σ α) := fun _ e => h e

theorem calm_bind {m : Meth σ α} {f : α → Meth σ β} (h : Calm m) (hf : ∀ a, Calm (f a)) : Calm (m >>= f) := by
  intro s e he
  rw [bind_run] at he
  cases hm : m s with
  | mk r s' =>
    rw [hm] at he
    cases r with
    | ok a => exact hf a s' e he
    | throw e' => exact h s e' (by rw [hm])
    | ub u => cases he
    | fuel => cases he

/-- First only reading, then something that changes nothing when it throws. -/
theorem bind_reads {m : Meth σ α} {f : α → Meth σ β} (h : Reads m) (hf : ∀ a, NoEffect (f a)) : NoEffect (m >>= f) := by
  intro s e he
  have h1 := h s
  rw [bind_run] at he ⊢
  cases hm : m s with
  | mk r s' =>
    rw [hm] at he h1
    cases r with
    | ok a => simp only at he h1 ⊢; rw [← h1, hf a s' e he]
    | throw e' => exact h1
    | ub u => cases he
    | fuel => cases he

/-- Something that changes nothing when it throws, then something that does not throw. -/
theorem bind_calm {m : Meth σ α} {f : α → Meth σ β} (h : NoEffect m) (hf : ∀ a, Calm (f a)) : NoEffect (m >>= f) := by
  intro s e he
  rw [bind_run] at he ⊢
  cases hm : m s with
  | mk r s' =>
    rw [hm] at he
    cases r with
    | ok a => exact absurd he (hf a s' e)
    | throw e' =>
      have := h s e' (by rw [hm])
      rwa [hm] at this
    | ub u => cases he
    | fuel => cases he

theorem set_noEffect (s : σ) : NoEffect (Meth.set s) := noEffect_of_calm (calm_set s)
theorem pure_noEffect (a : α) : NoEffect (pure a : Meth σ α) := noEffect_of_calm (calm_pure a)
theorem get_bind {f : σ → Meth σ β} (hf : ∀ a, NoEffect (f a)) : NoEffect (Meth.get >>= f) := bind_reads reads_get hf
theorem lift_bind {x : Res α} {f : α → Meth σ β} (hf : ∀ a, NoEffect (f a)) : NoEffect (Meth.lift x >>= f) :=
  bind_reads (reads_lift x) hf
theorem set_pure (s : σ) (a : α) : NoEffect (do Meth.set s; pure a : Meth σ α) :=
  noEffect_of_calm (calm_bind (calm_set s) (fun _ => calm_pure a))
theorem then_pure {m : Meth σ α} {f : α → β} (h : NoEffect m) : NoEffect (do let a ← m; pure (f a)) :=
  bind_calm h (fun _ => calm_pure _)
theorem then_const {m : Meth σ Unit} {b : β} (h : NoEffect m) : NoEffect (do m; pure b) := bind_calm h (fun _ => calm_pure _)

theorem stdErase_calm (l : List α) (a b : Nat) (e : String) : Lst.stdErase l a b ≠ .throw e := by
  unfold Lst.stdErase
  split <;> simp

end NoEff

open NoEff

variable {α : Type}

theorem NoEff.rotL (n : Int) : NoEffect (Lst.rotL n : Meth (List α) Unit) := by
  refine get_bind fun l => ?_
  split
  · exact pure_noEffect _
  · exact lift_bind fun _ => lift_bind fun _ => lift_bind fun _ => set_noEffect _

/-- C61 for `List`: an operation that throws leaves the list as it was. This is every mutating member but `map`, for which
see `C61_list_map_not`. -/
theorem C61_list [BEq α] (mem : Mem) (l : List α) (e : String) :
    (∀ op : LOp α, (op.step mem l).1 = .throw e → (op.step mem l).2 = l) ∧
    ((Lst.uniquify l).1 = .throw e → (Lst.uniquify l).2 = l) ∧
    (∀ lt, (Lst.sort lt l).1 = .throw e → (Lst.sort lt l).2 = l) ∧
    (∀ p, (Lst.filter mem p l).1 = .throw e → (Lst.filter mem p l).2 = l) ∧
    (∀ [Inhabited α] n, (Lst.mulAssign n l).1 = .throw e → (Lst.mulAssign n l).2 = l) := by
  refine ⟨?_, ?_, ?_, ?_, ?_⟩
  · intro op
    suffices h : NoEffect (op.step mem) from h l e
    cases op with
    | insert i x =>
      exact then_const (get_bind fun l => lift_bind fun _ => lift_bind fun _ => lift_bind fun _ => lift_bind fun _ =>
        lift_bind fun _ => lift_bind fun _ => set_noEffect _)
    | remove i =>
      exact then_pure (get_bind fun l => lift_bind fun _ => lift_bind fun _ => lift_bind fun _ => lift_bind fun _ =>
        lift_bind fun _ => set_pure _ _)
    | append x => exact then_const (get_bind fun l => lift_bind fun _ => set_noEffect _)
    | extendList m => exact then_const (get_bind fun l => lift_bind fun _ => lift_bind fun _ => lift_bind fun _ => set_noEffect _)
    | extend m => exact then_const (get_bind fun l => lift_bind fun _ => set_noEffect _)
    | removeFirst x =>
      refine then_const (get_bind fun l => lift_bind fun it => ?_)
      split
      · exact lift_bind fun _ => set_noEffect _
      · exact pure_noEffect _
    | removeAll x =>
      refine then_const (get_bind fun l => lift_bind fun r => ?_)
      exact noEffect_of_calm (calm_bind (calm_set _) fun _ => calm_bind (calm_lift (stdErase_calm _ _ _)) fun _ => calm_set _)
    | rotL n => exact then_const (NoEff.rotL n)
    | rotR n =>
      refine then_const (get_bind fun l => ?_)
      split
      · exact pure_noEffect _
      · split
        · exact lift_bind fun m => NoEff.rotL m
        · exact lift_bind fun m => NoEff.rotL m
    | reverse => exact then_const (get_bind fun l => set_noEffect _)
    | erase a b =>
      exact then_const (get_bind fun l => lift_bind fun _ => lift_bind fun _ => lift_bind fun _ => lift_bind fun _ =>
        lift_bind fun _ => lift_bind fun _ => set_noEffect _)
    | assign i x => exact then_const (get_bind fun l => lift_bind fun _ => lift_bind fun _ => set_noEffect _)
    | clear => exact then_const (set_noEffect _)
    | addSelf => exact then_const (get_bind fun l => lift_bind fun _ => lift_bind fun _ => lift_bind fun _ => set_noEffect _)
  · exact (get_bind fun l => lift_bind fun _ => set_noEffect _ : NoEffect (Lst.uniquify : Meth (List α) Unit)) l e
  · exact fun lt => (get_bind fun l => set_noEffect _ : NoEffect (Lst.sort lt)) l e
  · intro p
    have : NoEffect (Lst.filter mem p) := by
      refine get_bind fun l => ?_
      split
      · exact noEffect_of_reads (reads_lift _)
      · refine lift_bind fun r => ?_
        exact noEffect_of_calm (calm_bind (calm_set _) fun _ => calm_bind (calm_lift (stdErase_calm _ _ _)) fun _ => calm_set _)
    exact this l e
  · exact fun n => (get_bind fun l => lift_bind fun _ => set_noEffect _ : NoEffect (Lst.mulAssign n)) l e

example : ((LOp.insert 9 (1 : Nat)).step .strict [4, 5]).1 = .throw "Error: Index out of range." := by decide

/-- C61 fails for `List::map`: when the action throws, the elements it changed before stay changed. Here it doubles every
element and throws at 3. -/
theorem C61_list_map_not : ∃ (act : Nat → Unit → Res Unit × Nat × Unit) (l : List Nat) (e : String),
    (Lst.map act (l, ())).1 = .throw e ∧ (Lst.map act (l, ())).2.1 ≠ l :=
  ⟨fun x _ => if x = 3 then (.throw "three", x, ()) else (.ok (), 2 * x, ()), [1, 2, 3], "three", by decide⟩

/-- C61 for `List::map` as far as it holds: when the action throws at an element, the elements after it are as before (and
the number of elements too). Missing: the elements up to it, see `C61_list_map_not`. -/
theorem C61_list_map_partial {σ : Type} (act : α → σ → Res Unit × α × σ) (l : List α) (s : σ) (e : String)
    (h : (Lst.map act (l, s)).1 = .throw e) : ∃ (j : Nat) (x : α) (s' : σ), l[j]? = some x ∧ (act x s').1 = .throw e ∧
      (Lst.map act (l, s)).2.1.length = l.length ∧ (Lst.map act (l, s)).2.1.drop (j + 1) = l.drop (j + 1) := by
  have key : ∀ (n i : Nat) (l : List α) (s : σ), (Lst.forEach act n i (l, s)).1 = .throw e →
      ∃ (j : Nat) (x : α) (s' : σ), i ≤ j ∧ l[j]? = some x ∧ (act x s').1 = .throw e ∧
        (Lst.forEach act n i (l, s)).2.1.length = l.length ∧
        (Lst.forEach act n i (l, s)).2.1.drop (j + 1) = l.drop (j + 1) := by
    intro n
    induction n with
    | zero => intro i l s h; cases h
    | succ n ih =>
      intro i l s
      unfold Lst.forEach
      rw [Meth.get_bind]
      simp only
      cases hv : vget l i with
      | ok y =>
        rw [Meth.lift_ok_bind, Meth.set_bind]
        have hy : l[i]? = some y := by
          unfold vget at hv
          split at hv
          · next z hz => cases hv; exact hz
          · cases hv
        cases ha : (act y s).1 with
        | ok u =>
          rw [Meth.lift_ok_bind]
          intro h
          obtain ⟨j, x, s', hj, hx, hs, hl, hd⟩ := ih (i + 1) _ _ h
          have hne : i ≠ j := by omega
          rw [List.getElem?_set_ne hne] at hx
          refine ⟨j, x, s', by omega, hx, hs, by rw [hl, List.length_set], ?_⟩
          rw [hd, List.drop_set_of_lt (by omega)]
        | throw e' =>
          intro h
          have he : e' = e := by simpa using h
          refine ⟨i, y, s, by omega, hy, by rw [ha, he], ?_, ?_⟩
          · exact List.length_set
          · exact List.drop_set_of_lt (by omega)
        | ub u => intro h; cases h
        | fuel => intro h; cases h
      | throw e' =>
        unfold vget at hv
        split at hv <;> cases hv
      | ub u => intro h; cases h
      | fuel => intro h; cases h
  obtain ⟨j, x, s', -, hx, hs, hl, hd⟩ := key l.length 0 l s h
  exact ⟨j, x, s', hx, hs, hl, hd⟩

/-- C61 for `Deque`. -/
theorem C61_deque (op : DOp α) (d : List α) (e : String) (h : (op.step d).1 = .throw e) : (op.step d).2 = d := by
  have hrot : ∀ n, NoEffect (Dq.rotL n : Meth (List α) Unit) := by
    intro n
    refine get_bind fun l => ?_
    split
    · exact pure_noEffect _
    · exact lift_bind fun _ => lift_bind fun _ => lift_bind fun _ => set_noEffect _
  have hask : ∀ f : List α → Res α, NoEffect (Meth.ask f) := fun f => get_bind fun s => noEffect_of_reads (reads_lift _)
  suffices hn : NoEffect op.step from hn d e h
  cases op with
  | pushBack x => exact then_const (get_bind fun l => lift_bind fun _ => set_noEffect _)
  | pushFront x => exact then_const (get_bind fun l => lift_bind fun _ => set_noEffect _)
  | popBack => exact then_pure (get_bind fun l => lift_bind fun _ => lift_bind fun _ => set_pure _ _)
  | popFront => exact then_pure (get_bind fun l => lift_bind fun _ => lift_bind fun _ => set_pure _ _)
  | back => exact then_pure (hask _)
  | front => exact then_pure (hask _)
  | get i => exact then_pure (hask _)
  | assign i x => exact then_const (get_bind fun l => lift_bind fun _ => lift_bind fun _ => set_noEffect _)
  | extendBack m => exact then_const (get_bind fun l => set_noEffect _)
  | extendFront m => exact then_const (get_bind fun l => set_noEffect _)
  | rotL n => exact then_const (hrot n)
  | rotR n =>
    refine then_const (get_bind fun l => ?_)
    split
    · exact pure_noEffect _
    · split
      · exact lift_bind fun m => hrot m
      · exact lift_bind fun m => hrot m
  | reverse => exact then_const (get_bind fun l => set_noEffect _)
  | clear => exact then_const (set_noEffect _)

example : ((DOp.popBack : DOp Nat).step []).1 = .throw "Error: The container is empty." := by decide

/-- C61 for `Set`. -/
theorem C61_set (lt : α → α → Bool) (op : SOp α) (s : List α) (e : String) (h : (op.step lt s).1 = .throw e) :
    (op.step lt s).2 = s := by
  suffices hn : NoEffect (op.step lt) from hn s e h
  cases op with
  | add x => exact then_pure (get_bind fun l => lift_bind fun _ => set_pure _ _)
  | remove x => exact then_pure (get_bind fun l => set_pure _ _)
  | pop => exact then_pure (get_bind fun l => lift_bind fun _ => lift_bind fun _ => set_pure _ _)
  | min => exact get_bind fun s => then_pure (noEffect_of_reads (reads_lift _))
  | max => exact get_bind fun s => then_pure (noEffect_of_reads (reads_lift _))
  | contains x => exact get_bind fun s => pure_noEffect _
  | size => exact get_bind fun s => pure_noEffect _
  | extend xs => exact then_const (get_bind fun l => set_noEffect _)
  | clear => exact then_const (set_noEffect _)
  | inter t => exact then_const (get_bind fun l => set_noEffect _)
  | union t => exact then_const (get_bind fun l => set_noEffect _)
  | diff t => exact then_const (get_bind fun l => set_noEffect _)
  | symDiff t => exact then_const (get_bind fun l => set_noEffect _)

example : ((SOp.pop : SOp Nat).step (fun a b => decide (a < b)) []).1 = .throw "Error: The container is empty." := by decide

/-- C61 for `Dict`. -/
theorem C61_dict {K V : Type} (lt : K → K → Bool) (op : MOp K V) (d : List (K × V)) (e : String)
    (h : (op.step lt d).1 = .throw e) : (op.step lt d).2 = d := by
  suffices hn : NoEffect (op.step lt) from hn d e h
  cases op with
  | add k v => exact then_pure (get_bind fun l => lift_bind fun _ => set_pure _ _)
  | remove k => exact then_pure (get_bind fun l => set_pure _ _)
  | assign k v => exact then_const (get_bind fun l => lift_bind fun _ => lift_bind fun _ => set_noEffect _)
  | get k => exact get_bind fun s => then_pure (noEffect_of_reads (reads_lift _))
  | getOr k v => exact get_bind fun s => then_pure (noEffect_of_reads (reads_lift _))
  | contains k => exact get_bind fun s => pure_noEffect _
  | pop => exact then_pure (get_bind fun l => lift_bind fun _ => lift_bind fun _ => set_pure _ _)
  | size => exact get_bind fun s => pure_noEffect _
  | extend xs => exact then_const (get_bind fun l => set_noEffect _)
  | clear => exact then_const (set_noEffect _)

example : ((MOp.get 3 : MOp Nat Nat).step (fun a b => decide (a < b)) [(1, 2)]).1
    = .throw "Error: Key is not found in the dictionary." := by decide

end Pyincpp
