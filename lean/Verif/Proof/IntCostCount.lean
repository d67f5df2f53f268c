import Verif.Proof.IntCost
import Verif.Proof.IntDiv
import Verif.Spec.IntCost

/-! # Counting the steps of `Int`: the counts -/

namespace Pyincpp
namespace Steps

variable {α β σ : Type}

abbrev Count := Kind → ℕ

/-- One step of kind `k`. -/
def unit (k : Kind) (n : ℕ := 1) : Count := fun j => if j = k then n else 0

/-- If the computation returns, its result and count satisfy `P`. -/
def Post (x : Steps α) (P : α → Count → Prop) : Prop := ∀ a c, x.run = .ok (a, c) → P a c

theorem Post.mono {x : Steps α} {P Q : α → Count → Prop} (h : Post x P) (hq : ∀ a c, P a c → Q a c) : Post x Q :=
  fun a c e => hq a c (h a c e)

theorem Post.and {x : Steps α} {P Q : α → Count → Prop} (h : Post x P) (hq : Post x Q) : Post x (fun a c => P a c ∧ Q a c) :=
  fun a c e => ⟨h a c e, hq a c e⟩

theorem post_pure {a : α} {P : α → Count → Prop} (h : P a 0) : Post (pure a) P := by
  intro b c e
  have e' : (Res.ok (a, (0 : Count))) = .ok (b, c) := e
  injection e' with e'; injection e' with e1 e2; subst e1 e2; exact h

theorem post_lift {r : Res α} {P : α → Count → Prop} (h : ∀ a, r = .ok a → P a 0) : Post (lift r) P := by
  intro b c e
  cases r with
  | ok a =>
    have e' : (Res.ok (a, (0 : Count))) = .ok (b, c) := e
    injection e' with e'; injection e' with e1 e2; subst e1 e2; exact h _ rfl
  | throw m => exact absurd e (by simp [lift])
  | ub u => exact absurd e (by simp [lift])
  | fuel => exact absurd e (by simp [lift])

theorem post_tick {k : Kind} {n : ℕ} {P : Unit → Count → Prop} (h : P () (unit k n)) : Post (tick k n) P := by
  intro b c e
  have e' : (Res.ok ((), (unit k n))) = .ok (b, c) := e
  injection e' with e'; injection e' with e1 e2; subst e2; exact h

theorem post_bind {x : Steps α} {f : α → Steps β} {P : β → Count → Prop}
    (h : Post x (fun a c => Post (f a) (fun b d => P b (c + d)))) : Post (x >>= f) P := by
  intro b c e
  have e' : (x.run >>= fun p => (f p.1).run >>= fun q => Res.ok (q.1, p.2 + q.2)) = .ok (b, c) := e
  rw [Res.bind_eq_ok] at e'
  obtain ⟨⟨a, c1⟩, h1, h2⟩ := e'
  rw [Res.bind_eq_ok] at h2
  obtain ⟨⟨b', c2⟩, h3, h4⟩ := h2
  injection h4 with h4; injection h4 with e1 e2; subst e1 e2
  exact h a c1 h1 _ _ h3

theorem post_ite {p : Prop} [Decidable p] {x y : Steps α} {P : α → Count → Prop} (h1 : p → Post x P) (h2 : ¬ p → Post y P) :
    Post (if p then x else y) P := by
  split
  · exact h1 ‹_›
  · exact h2 ‹_›

theorem post_forUp {kd : Kind} {b : ℕ → σ → Steps σ} (Inv : ℕ → σ → Count → Prop) :
    ∀ (n i : ℕ) (s : σ) (c : Count), Inv i s c →
      (∀ j s c, i ≤ j → j < i + n → Inv j s c → Post (b j s) (fun t d => Inv (j + 1) t (c + unit kd + d))) →
      Post (forUp kd b i n s) (fun t d => Inv (i + n) t (c + d))
  | 0, i, s, c, h0, _ => post_pure (by simpa using h0)
  | n + 1, i, s, c, h0, h => by
    unfold forUp
    refine post_bind (post_tick (post_bind ((h i s c le_rfl (by omega) h0).mono fun t d ht => ?_)))
    refine (post_forUp Inv n (i + 1) t _ ht (fun j s c hj1 hj2 => h j s c (by omega) (by omega))).mono fun u e hu => ?_
    rw [show i + (n + 1) = i + 1 + n by omega, show c + (unit kd 1 + (d + e)) = c + unit kd 1 + d + e by simp only [add_assoc]]
    exact hu

theorem post_forRange {kd : Kind} {b : ℕ → σ → Steps σ} (Inv : ℕ → σ → Count → Prop) (n : ℕ) (s : σ) (h0 : Inv 0 s 0)
    (h : ∀ j s c, j < n → Inv j s c → Post (b j s) (fun t d => Inv (j + 1) t (c + unit kd + d))) :
    Post (forRange kd 0 n b s) (fun t d => Inv n t d) := by
  have := post_forUp Inv n 0 s 0 h0 (fun j s c _ hj => h j s c (by omega))
  simpa [forRange] using this

theorem post_forDown {kd : Kind} {b : ℕ → σ → Steps σ} (Inv : ℕ → σ → Count → Prop) :
    ∀ (n : ℕ) (s : σ) (c : Count), Inv n s c →
      (∀ j s c, j < n → Inv (j + 1) s c → Post (b j s) (fun t d => Inv j t (c + unit kd + d))) →
      Post (forDown kd b n s) (fun t d => Inv 0 t (c + d))
  | 0, s, c, h0, _ => post_pure (by simpa using h0)
  | n + 1, s, c, h0, h => by
    unfold forDown
    refine post_bind (post_tick (post_bind ((h n s c (by omega) h0).mono fun t d ht => ?_)))
    refine (post_forDown Inv n t _ ht (fun j s c hj => h j s c (by omega))).mono fun u e hu => ?_
    rw [show c + (unit kd 1 + (d + e)) = c + unit kd 1 + d + e by simp only [add_assoc]]
    exact hu

theorem post_forUpWhile {kd : Kind} {cond : ℕ → σ → Res Bool} {b : ℕ → σ → Steps σ} (Inv : ℕ → σ → Count → Prop) :
    ∀ (n i : ℕ) (s : σ) (c : Count), Inv i s c →
      (∀ j s c, i ≤ j → j < i + n → Inv j s c → Post (b j s) (fun t d => Inv (j + 1) t (c + unit kd + d))) →
      Post (forUpWhile kd cond b i n s) (fun t d => ∃ j, i ≤ j ∧ j ≤ i + n ∧ Inv j t (c + d))
  | 0, i, s, c, h0, _ => post_pure ⟨i, le_rfl, by omega, by simpa using h0⟩
  | n + 1, i, s, c, h0, h => by
    unfold forUpWhile
    refine post_bind (post_lift fun a _ => post_ite (fun _ => ?_) (fun _ => post_pure ⟨i, le_rfl, by omega, by simpa using h0⟩))
    refine post_bind (post_tick (post_bind ((h i s c le_rfl (by omega) h0).mono fun t d ht => ?_)))
    refine (post_forUpWhile Inv n (i + 1) t _ ht (fun j s c hj1 hj2 => h j s c (by omega) (by omega))).mono ?_
    rintro u e ⟨j, h1, h2, hu⟩
    refine ⟨j, by omega, by omega, ?_⟩
    rw [show c + (0 + (unit kd 1 + (d + e))) = c + unit kd 1 + d + e by simp only [add_assoc, zero_add]]
    exact hu

theorem post_whileF {kd : Kind} {cond : σ → Steps Bool} {b : σ → Steps σ} (Inv Q : σ → Count → Prop)
    (h : ∀ s c, Inv s c → Post (cond s) (fun t d =>
      if t then Post (b s) (fun s' e => Inv s' (c + d + unit kd + e)) else Q s (c + d))) :
    ∀ (k : ℕ) (s : σ) (c : Count), Inv s c → Post (whileF kd cond b k s) (fun t d => Q t (c + d))
  | 0, s, c, _ => post_lift (by simp)
  | k + 1, s, c, h0 => by
    unfold whileF
    refine post_bind ((h s c h0).mono fun t d ht => ?_)
    cases t with
    | true =>
      simp only [if_true] at ht ⊢
      refine post_bind (post_tick (post_bind (ht.mono fun s' e hs => ?_)))
      refine (post_whileF Inv Q h k s' _ hs).mono fun u f hu => ?_
      rw [show c + (d + (unit kd 1 + (e + f))) = c + d + unit kd 1 + e + f by simp only [add_assoc]]
      exact hu
    | false =>
      simp only [Bool.false_eq_true, if_false] at ht ⊢
      exact post_pure (by simpa using ht)

/-- What a computation without its count returns, together with what is known about the count. -/
theorem run_of_forget {x : Steps α} {a : α} {P : α → Count → Prop} (hf : forget x = .ok a) (hp : Post x P) :
    ∃ c, x.run = .ok (a, c) ∧ P a c := by
  rcases x with ⟨_ | _ | _ | _⟩
  · rename_i p
    rcases p with ⟨b, c⟩
    have e : (Res.ok b) = Res.ok a := hf
    injection e with e; subst e
    exact ⟨c, rfl, hp _ _ rfl⟩
  all_goals exact absurd hf (by simp [forget])

theorem forget_of_run {x : Steps α} {a : α} {c : Count} (h : x.run = .ok (a, c)) : forget x = .ok a := by
  simp [forget, h]

end Steps
end Pyincpp
