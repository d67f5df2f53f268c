import Verif.Spec.ReadLoop
import Verif.Proof.Meth
import Mathlib.Tactic.Common

namespace Pyincpp

variable {σ α : Type} {blank : UInt8 → Prop} {text : α → List UInt8} {rest : List UInt8} {items : List (List UInt8 × α)}

namespace column

theorem cons (text : α → List UInt8) (p : List UInt8 × α) (ps : List (List UInt8 × α)) (rest : List UInt8) :
    column text (p :: ps) rest = p.1 ++ (text p.2 ++ column text ps rest) := by
  simp [column]

theorem concat (text : α → List UInt8) (p : List UInt8 × α) (ps : List (List UInt8 × α)) (rest : List UInt8) :
    column text (ps ++ [p]) rest = column text ps (p.1 ++ (text p.2 ++ rest)) := by
  simp [column]

theorem length_le (text : α → List UInt8) (ps : List (List UInt8 × α)) (rest : List UInt8) :
    rest.length ≤ (column text ps rest).length := by
  simp [column]

end column

theorem Separated.tail {p : List UInt8 × α} {ps : List (List UInt8 × α)} (h : Separated blank (p :: ps)) : Separated blank ps :=
  ⟨fun q hq => h.1 q (List.mem_cons_of_mem _ hq), fun q hq => h.2 q (List.mem_of_mem_tail hq)⟩

/-- What follows an item begins with a blank, if anything does. -/
theorem Separated.begins {p : List UInt8 × α} {ps : List (List UInt8 × α)} (h : Separated blank (p :: ps))
    (hr : ∀ c r, rest = c :: r → blank c) : ∀ c r, column text ps rest = c :: r → blank c := by
  intro c r e
  cases ps with
  | nil => exact hr c r (by simpa [column] using e)
  | cons q qs =>
    have h2 := h.2 q (by simp)
    rw [column.cons] at e
    match hq : q.1, h2 with
    | d :: u, _ =>
      rw [hq] at e
      have := (List.cons.inj e).1
      subst this
      exact h.1 q (by simp) d (by simp [hq])

variable {input : Meth (σ × IStream) Unit} {out : σ → α} {val : α → σ} {lossy : α → Bool} {K : Nat}

/-- `input` reads an item: the stream afterwards is at the rest. -/
def Reads (blank : UInt8 → Prop) (text : α → List UInt8) (input : Meth (σ × IStream) Unit) (val : α → σ) (lossy : α → Bool) (K : Nat)
    (a : α) : Prop :=
  ∀ bl rest y, (∀ c ∈ bl, blank c) → bl.length < K → (∀ c r, rest = c :: r → blank c) →
    input (y, ⟨bl ++ (text a ++ rest), false, false⟩) = (.ok (), (val a, ⟨rest, rest.isEmpty, rest.isEmpty && lossy a⟩))

theorem readN_column (hread : ∀ p ∈ items, Reads blank text input val lossy K p.2) (hne : ∀ p ∈ items, text p.2 ≠ [])
    (hs : Separated blank items) (hr : ∀ c r, rest = c :: r → blank c) (hK : ∀ p ∈ items, p.1.length < K) (v : List σ) (y : σ) :
    (readN input id items.length v (y, ⟨column text items rest, false, false⟩)).1 = .ok (v ++ items.map (fun p => val p.2)) := by
  induction items generalizing v y with
  | nil => simp [readN]
  | cons p ps ih =>
    have h := hread p (by simp) p.1 (column text ps rest) y (hs.1 p (by simp)) (hK p (by simp)) (hs.begins hr)
    rw [column.cons, List.length_cons, readN, Meth.run_ok h, Meth.get_bind]
    cases ps with
    | nil => simp [readN]
    | cons q qs =>
      have e : (column text (q :: qs) rest).isEmpty = false := by
        rw [column.cons]
        have := hne q (by simp)
        simp [this]
      rw [e, Bool.false_and]
      rw [ih (fun p hp => hread p (by simp [hp])) (fun p hp => hne p (by simp [hp])) hs.tail (fun p hp => hK p (by simp [hp]))]
      simp

/-- The loop passes all items, if something follows them. -/
theorem readWhile_column (hread : ∀ p ∈ items, Reads blank text input val lossy K p.2)
    (hs : Separated blank items) (hr : ∀ c r, rest = c :: r → blank c) (hne : rest ≠ []) (hK : ∀ p ∈ items, p.1.length < K)
    (n : Nat) (v : List σ) (y : σ) :
    ∃ y', readWhile input id (n + items.length) v (y, ⟨column text items rest, false, false⟩) =
      readWhile input id n (v ++ items.map (fun p => val p.2)) (y', ⟨rest, false, false⟩) := by
  induction items generalizing v y with
  | nil => exact ⟨y, by simp [column]⟩
  | cons p ps ih =>
    have h := hread p (by simp) p.1 (column text ps rest) y (hs.1 p (by simp)) (hK p (by simp)) (hs.begins hr)
    have e : (column text ps rest).isEmpty = false := by
      have := column.length_le text ps rest
      cases hc : column text ps rest with
      | nil => rw [hc] at this; simp at this; exact absurd this hne
      | cons => rfl
    obtain ⟨y', ih⟩ := ih (fun p hp => hread p (by simp [hp])) hs.tail (fun p hp => hK p (by simp [hp])) (v ++ [val p.2]) (val p.2)
    refine ⟨y', ?_⟩
    rw [column.cons, List.length_cons, ← Nat.add_assoc, readWhile, Meth.run_ok h, Meth.get_bind, e, Bool.false_and]
    simp only [Bool.false_eq_true, if_false, id]
    rw [ih]
    simp

/-- At the end of the input: the last item is not kept if reading it makes the stream fail. -/
theorem readWhile_last {p : List UInt8 × α} (hread : ∀ q ∈ items ++ [p], Reads blank text input val lossy K q.2)
    (hs : Separated blank (items ++ [p])) (hne : text p.2 ≠ []) (hK : ∀ q ∈ items ++ [p], q.1.length < K)
    (n : Nat) (v : List σ) (y : σ) :
    readWhile input id (n + 1 + items.length) v (y, ⟨column text (items ++ [p]) [], false, false⟩) =
      if lossy p.2 then (.ok (v ++ items.map (fun p => val p.2)), (val p.2, ⟨[], true, true⟩))
      else readWhile input id n (v ++ (items ++ [p]).map (fun p => val p.2)) (val p.2, ⟨[], true, false⟩) := by
  have hsi : Separated blank items := by
    refine ⟨fun q hq => hs.1 q (by simp [hq]), fun q hq => hs.2 q ?_⟩
    cases items with
    | nil => simp at hq
    | cons a l => simp at hq ⊢; exact .inl hq
  rw [column.concat]
  by_cases hi : items = []
  · subst hi
    have h := hread p (by simp) p.1 [] y (hs.1 p (by simp)) (hK p (by simp)) (by simp)
    simp only [column, List.flatMap_nil, List.nil_append, List.length_nil, Nat.add_zero, List.map_nil, List.append_nil]
    rw [List.append_nil] at h
    rw [readWhile, Meth.run_ok h, Meth.get_bind]
    simp only [List.isEmpty_nil, Bool.true_and]
    split <;> simp [*]
  · have hp : p.1 ≠ [] := hs.2 p (by cases items with
      | nil => exact absurd rfl hi
      | cons a l => simp)
    obtain ⟨y', e⟩ := readWhile_column (rest := p.1 ++ (text p.2 ++ [])) (fun q hq => hread q (by simp [hq])) hsi
      (by
        intro c r e
        match hq : p.1, hp with
        | d :: u, _ =>
          rw [hq] at e
          have := (List.cons.inj e).1
          subst this
          exact hs.1 p (by simp) d (by simp [hq])) (by simp [hne]) (fun q hq => hK q (by simp [hq])) (n + 1) v y
    rw [e]
    have h := hread p (by simp) p.1 [] y' (hs.1 p (by simp)) (hK p (by simp)) (by simp)
    rw [readWhile, Meth.run_ok h, Meth.get_bind]
    simp only [List.isEmpty_nil, Bool.true_and]
    split <;> simp [*]

end Pyincpp
