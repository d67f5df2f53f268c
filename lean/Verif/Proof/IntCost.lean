import Verif.Model.IntCost

/-! # Counting the steps of `Int`: forgetting the count -/

namespace Pyincpp
namespace Steps

variable {α β σ : Type}

@[simp] theorem liftM_eq (r : Res α) : (liftM r : Steps α) = lift r := rfl
@[simp] theorem forget_pure (a : α) : forget (pure a) = .ok a := rfl
@[simp] theorem forget_bind (x : Steps α) (f : α → Steps β) : forget (x >>= f) = forget x >>= fun a => forget (f a) := by
  rcases x with ⟨_ | _ | _ | _⟩
  · rename_i p
    rcases p with ⟨a, c⟩
    show (((f a).run >>= fun q => Res.ok (q.1, c + q.2)) >>= fun p => Res.ok p.1) = forget (f a)
    unfold forget
    rcases (f a).run with _ | _ | _ | _ <;> rfl
  all_goals rfl
@[simp] theorem forget_lift (r : Res α) : forget (lift r) = r := by cases r <;> rfl
@[simp] theorem forget_tick (k : Kind) (n : ℕ) : forget (tick k n) = .ok () := rfl
@[simp] theorem forget_ite (c : Prop) [Decidable c] (x y : Steps α) : forget (if c then x else y) = if c then forget x else forget y := by
  split <;> rfl

theorem forget_forUp {kd : Kind} {b : ℕ → σ → Steps σ} {b' : ℕ → σ → Res σ} (h : ∀ i s, forget (b i s) = b' i s) :
    ∀ (n i : ℕ) (s : σ), forget (forUp kd b i n s) = Pyincpp.forUp b' i n s
  | 0, _, _ => rfl
  | n + 1, i, s => by
    simp only [forUp, Pyincpp.forUp, forget_bind, forget_tick, Res.ok_bind, h]
    congr 1; funext s; exact forget_forUp h n (i + 1) s

theorem forget_forRange {kd : Kind} {b : ℕ → σ → Steps σ} {b' : ℕ → σ → Res σ} (h : ∀ i s, forget (b i s) = b' i s) (lo hi : ℕ) (s : σ) :
    forget (forRange kd lo hi b s) = Pyincpp.forRange lo hi b' s := forget_forUp h _ _ _

theorem forget_forDown {kd : Kind} {b : ℕ → σ → Steps σ} {b' : ℕ → σ → Res σ} (h : ∀ i s, forget (b i s) = b' i s) :
    ∀ (n : ℕ) (s : σ), forget (forDown kd b n s) = Pyincpp.forDown b' n s
  | 0, _ => rfl
  | n + 1, s => by
    simp only [forDown, Pyincpp.forDown, forget_bind, forget_tick, Res.ok_bind, h]
    congr 1; funext s; exact forget_forDown h n s

theorem forget_forUpWhile {kd : Kind} {c : ℕ → σ → Res Bool} {b : ℕ → σ → Steps σ} {b' : ℕ → σ → Res σ}
    (h : ∀ i s, forget (b i s) = b' i s) :
    ∀ (n i : ℕ) (s : σ), forget (forUpWhile kd c b i n s) = Pyincpp.forUpWhile c b' i n s
  | 0, _, _ => rfl
  | n + 1, i, s => by
    simp only [forUpWhile, Pyincpp.forUpWhile, forget_bind, forget_lift, forget_ite, forget_tick, Res.ok_bind, h, forget_pure, Res.pure_eq]
    congr 1; funext t
    split
    · congr 1; funext s; exact forget_forUpWhile h n (i + 1) s
    · rfl

theorem forget_whileF {kd : Kind} {c : σ → Steps Bool} {c' : σ → Res Bool} {b : σ → Steps σ} {b' : σ → Res σ}
    (hc : ∀ s, forget (c s) = c' s) (h : ∀ s, forget (b s) = b' s) :
    ∀ (k : ℕ) (s : σ), forget (whileF kd c b k s) = Pyincpp.whileF c' b' k s
  | 0, _ => rfl
  | k + 1, s => by
    simp only [whileF, Pyincpp.whileF, forget_bind, forget_ite, forget_tick, Res.ok_bind, h, hc, forget_pure, Res.pure_eq]
    congr 1; funext t
    split
    · congr 1; funext s; exact forget_whileF hc h k s
    · rfl

end Steps

namespace BInt
open Steps

@[simp] theorem forget_trimS (x : BInt) : forget (trimS x) = .ok (trim x) := by simp [trimS]
@[simp] theorem forget_copyS (x : BInt) : forget (copyS x) = .ok x := by simp [copyS]

theorem forget_absIncS (x : BInt) : forget (absIncS x) = absInc x := by
  unfold absIncS absInc
  simp only [liftM_eq, forget_bind, forget_tick, Res.ok_bind, forget_lift, forget_trimS, Res.pure_eq]
  rw [forget_whileF (c' := fun i => do pure ((← vget (x.chunks ++ [0]) i) == 9)) (b' := fun i => .ok (i + 1)) (by simp) (by simp)]
  simp only [Res.pure_eq]
  congr 1; funext i
  congr 1; funext a
  congr 1; funext b
  congr 1; funext v
  rw [forget_forDown (b' := fun j v => vset v j 0) (fun _ _ => forget_lift _)]

theorem forget_absDecS (x : BInt) : forget (absDecS x) = absDec x := by
  unfold absDecS absDec
  simp only [liftM_eq, forget_bind, forget_lift, forget_trimS, Res.pure_eq]
  rw [forget_whileF (c' := fun i => do pure ((← vget x.chunks i) == 0)) (b' := fun i => .ok (i + 1)) (by simp) (by simp)]
  simp only [Res.pure_eq]
  congr 1; funext i
  congr 1; funext a
  congr 1; funext b
  congr 1; funext v
  rw [forget_forDown (b' := fun j v => vset v j 9) (fun _ _ => forget_lift _)]

theorem forget_incS (x : BInt) : forget (incS x) = inc x := by
  unfold incS inc
  simp [forget_absIncS, forget_absDecS]

theorem forget_decS (x : BInt) : forget (decS x) = dec x := by
  unfold decS dec
  simp [forget_absIncS, forget_absDecS]

theorem forget_absCmpLoopS (a b : List Int) : ∀ n, forget (absCmpLoopS a b n) = absCmpLoop a b n
  | 0 => rfl
  | n + 1 => by simp [absCmpLoopS, absCmpLoop, forget_absCmpLoopS a b n]

theorem forget_absCmpS (x y : BInt) : forget (absCmpS x y) = absCmp x y := by
  simp [absCmpS, absCmp, forget_absCmpLoopS]

theorem forget_cmpS (x y : BInt) : forget (cmpS x y) = cmp x y := by
  simp [cmpS, cmp, forget_absCmpS]

theorem forget_geS (x y : BInt) : forget (geS x y) = ge x y := by
  simp [geS, ge, forget_cmpS]

theorem forget_addSameS (mem : Mem) (self : Bool) (x y : BInt) : forget (addSameS mem self x y) = addSame mem self x y := by
  unfold addSameS addSame
  simp only [liftM_eq, forget_bind, forget_tick, Res.ok_bind, forget_trimS, Res.pure_eq]
  rw [forget_forRange (b' := _) (fun i s => by simp only [forget_bind, forget_lift]; rfl)]
  congr 1; funext a
  rw [forget_forUpWhile (b' := _) (fun i s => by simp only [forget_bind, forget_lift]; rfl)]

theorem forget_subSameS (mem : Mem) (x y : BInt) : forget (subSameS mem x y) = subSame mem x y := by
  unfold subSameS subSame
  simp only [liftM_eq, forget_bind, forget_copyS, Res.ok_bind, forget_trimS, Res.pure_eq, forget_absCmpS]
  congr 1; funext c
  rw [forget_forRange (b' := _) (fun i s => by simp only [forget_bind, forget_lift]; rfl)]
  congr 1; funext a
  rw [forget_forUpWhile (b' := _) (fun i s => by simp only [forget_bind, forget_lift]; rfl)]

mutual
theorem forget_addAssignS (mem : Mem) (self : Bool) : ∀ k x y, forget (addAssignS mem self k x y) = addAssign mem self k x y
  | 0, _, _ => rfl
  | k + 1, x, y => by
    unfold addAssignS addAssign
    simp only [forget_ite, forget_bind, forget_copyS, forget_pure, Res.ok_bind, forget_addSameS]
    rw [forget_subAssignS mem k x (neg y)]
    congr 1
    split <;> rfl
theorem forget_subAssignS (mem : Mem) : ∀ k x y, forget (subAssignS mem k x y) = subAssign mem k x y
  | 0, _, _ => rfl
  | k + 1, x, y => by
    unfold subAssignS subAssign
    simp only [forget_ite, forget_bind, forget_copyS, forget_pure, Res.ok_bind, forget_subSameS]
    rw [forget_addAssignS mem false k x (neg y)]
    congr 1
    split <;> rfl
end

theorem forget_mulAssignS (x y : BInt) : forget (mulAssignS x y) = mulAssign x y := by
  unfold mulAssignS mulAssign
  simp only [liftM_eq, forget_ite, forget_bind, forget_tick, forget_copyS, forget_lift, forget_trimS, Res.ok_bind, Res.pure_eq]
  congr 1
  rw [forget_forRange (b' := _) (fun i s => forget_forRange (b' := _) (fun j s => by simp only [forget_bind, forget_lift]; rfl) _ _ _)]

theorem forget_eraseFrontS (v : List Int) : forget (eraseFrontS v) = eraseFront v := by simp [eraseFrontS]

theorem forget_divAssignS (mem : Mem) (k : ℕ) (x y : BInt) : forget (divAssignS mem k x y) = divAssign mem k x y := by
  unfold divAssignS divAssign
  simp only [liftM_eq, forget_ite, forget_bind, forget_tick, forget_copyS, forget_lift, forget_trimS, Res.ok_bind, Res.pure_eq]
  congr 1; funext _
  congr 1; funext dx
  congr 1; funext dy
  congr 1
  rw [forget_forDown (b' := fun i (s : BInt × List Int × List Int) => do
        let tmp ← eraseFront s.2.1
        let t : BInt := { sign := 1, chunks := tmp }
        let (x, r) ← whileF (fun (w : BInt × List Int) => ge w.1 t)
          (fun w => do
            let r ← vset w.2 i (← iadd (← vget w.2 i) 1)
            let x ← subAssign mem k w.1 t
            Res.ok (x, r)) k (s.1, s.2.2)
        Res.ok (x, tmp, r)) (fun i s => by
    simp only [forget_bind, forget_eraseFrontS]
    congr 1; funext tmp
    rw [forget_whileF (c' := _) (b' := _) (fun w => forget_geS _ _)
      (fun w => by simp only [forget_bind, forget_lift, forget_subAssignS, forget_pure]; rfl)]
    rfl)]

theorem forget_modAssignS (mem : Mem) (k : ℕ) (x y : BInt) : forget (modAssignS mem k x y) = modAssign mem k x y := by
  unfold modAssignS modAssign
  simp only [liftM_eq, forget_ite, forget_bind, forget_tick, forget_lift, forget_trimS, forget_pure, Res.ok_bind, Res.pure_eq]
  congr 1; funext _
  congr 1; funext dx
  congr 1; funext dy
  congr 1
  rw [forget_forRange (b' := fun _ (s : BInt × List Int) => do
        let tmp ← eraseFront s.2
        let t : BInt := { sign := 1, chunks := tmp }
        let x ← whileF (fun w => ge w t) (fun w => subAssign mem k w t) k s.1
        Res.ok (x, tmp)) (fun i s => by
    simp only [forget_bind, forget_eraseFrontS]
    congr 1; funext tmp
    rw [forget_whileF (c' := _) (b' := _) (fun w => forget_geS _ _) (fun w => forget_subAssignS _ _ _ _)]
    rfl)]

end BInt
end Pyincpp
