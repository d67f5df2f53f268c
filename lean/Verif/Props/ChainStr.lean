import Verif.Model.ChainStr
import Verif.Props.Chain

/-! # C111 for `Str`: results of chains can always be referred to -/

namespace Pyincpp

namespace Chain

variable {α : Type}

/-- A chain of members that return by value leaves every variable as it was. -/
theorem value_only (h : Heap α) (r : Root α) (v : α) (hb : Begins h r v) (ks : List (Call α)) (hk : ∀ k ∈ ks, ∃ f, k = .fresh f) {w : α}
    (hw : value v ks = .ok w) :
    ∃ h' i, bind h r ks = .ok (h', i) ∧ h'.read i = .ok w ∧ ∀ j < h.length, h'[j]? = h[j]? := by
  have hn : ¬ ByReference ks := by
    rintro ⟨m, e⟩
    obtain ⟨f, hf⟩ := hk _ (List.mem_of_getLast? e)
    cases hf
  have E := (C111_reference_exact hb ks hw).2 (fun h => hn h.2)
  have same : ∀ (ks : List (Call α)), (∀ k ∈ ks, ∃ f, k = .fresh f) → ∀ c c' : Chain α, h.length ≤ c.heap.length → c.calls ks = .ok c' →
      h.length ≤ c'.heap.length ∧ ∀ j < h.length, c'.heap[j]? = c.heap[j]? := by
    intro ks
    induction ks with
    | nil =>
      intro _ c c' hl e
      obtain rfl := Res.ok.inj e
      exact ⟨hl, fun _ _ => rfl⟩
    | cons k ks ih =>
      intro hk c c' hl e
      obtain ⟨f, rfl⟩ := hk k List.mem_cons_self
      simp only [calls, step] at e
      cases e1 : c.heap.read c.cur with
      | ok v =>
        rw [e1, Res.ok_bind] at e
        cases e2 : f v with
        | ok v' =>
          rw [e2, Res.ok_bind, Res.ok_bind] at e
          obtain ⟨g1, g2⟩ := ih (fun k' h' => hk k' (List.mem_cons_of_mem _ h')) _ _ (by simp; omega) e
          exact ⟨g1, fun j hj => by rw [g2 j hj]; exact List.getElem?_append_left (by omega)⟩
        | throw => rw [e2] at e; cases e
        | ub => rw [e2] at e; cases e
        | fuel => rw [e2] at e; cases e
      | throw => rw [e1] at e; cases e
      | ub => rw [e1] at e; cases e
      | fuel => rw [e1] at e; cases e
  have start_same : h.length ≤ (start h r).heap.length ∧ ∀ j < h.length, (start h r).heap[j]? = h[j]? := by
    cases r with
    | var i => exact ⟨Nat.le_refl _, fun _ _ => rfl⟩
    | temp v => exact ⟨by simp [start], fun j hj => by simp only [start]; exact List.getElem?_append_left hj⟩
  have := calls_value h r ks [] v _ (inv_start hb)
  rw [hw] at this
  obtain ⟨c, h1, I⟩ := this
  unfold bind at E ⊢
  rw [h1] at E ⊢
  simp only [Res.ok_bind] at E ⊢
  refine ⟨_, _, rfl, E, fun j hj => ?_⟩
  obtain ⟨g1, g2⟩ := same ks hk _ _ start_same.1 h1
  rw [destroy_get _ _ _ (by omega), if_neg, g2 j hj, start_same.2 j hj]
  intro hm
  have : j ∈ c.temps := by
    split at hm
    · exact List.mem_of_mem_erase hm
    · exact hm
  have := (I.mine j this).1
  omega

end Chain

/-- C111 for `Str`: whatever a chain of its members begins with, if nothing throws then a reference to the result can be read later, and
every variable is what it was before. -/
theorem C111_str (mem : Mem) (k : ℕ) (h : Heap (List UInt8)) (r : Root (List UInt8)) (s w : List UInt8) (hb : Chain.Begins h r s)
    (ks : List StCall) (hw : Chain.value s (ks.map (StCall.call mem k)) = .ok w) :
    ∃ h' i, Chain.bind h r (ks.map (StCall.call mem k)) = .ok (h', i) ∧ h'.read i = .ok w ∧ ∀ j < h.length, h'[j]? = h[j]? :=
  Chain.value_only h r s hb _ (by
    intro c hc
    obtain ⟨k', -, rfl⟩ := List.mem_map.1 hc
    cases k' <;> exact ⟨_, rfl⟩) hw

/-- `Str("aB").lower().reverse() + 'c'` is "bac". -/
example : Chain.value [97, 66] ([StCall.lower, .reverse, .plusChar 99].map (StCall.call .strict 0)) = .ok [98, 97, 99] := by decide

end Pyincpp
