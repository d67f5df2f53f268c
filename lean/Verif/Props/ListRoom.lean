import Verif.Props.ListRef

/-! # C85: the room of a list -/

namespace Pyincpp
namespace Lst

variable {α : Type}

/-- The members that make a new buffer of the size they need. -/
def VOp.Refills : VOp α → Prop
  | .uniquify | .mulAssign _ => True
  | _ => False

theorem step_cap [BEq α] [Inhabited α] {mem : Mem} {grow : ℕ → ℕ → ℕ} (hg : ∀ c n, n ≤ grow c n) (o : VOp α) (ho : ¬ o.Refills) (s : Vec α) :
    s.cap ≤ (o.step mem grow s).2.cap := by
  have hr : o.replaces = false := by
    cases o <;> first | rfl | exact absurd trivial ho
  unfold VOp.step
  rcases o.on mem s.l with ⟨r, l'⟩
  cases r with
  | ok =>
    simp only [Vec.after, hr]
    rw [if_neg (by simp)]
    split
    · exact Nat.le_refl _
    · have := hg s.cap l'.length
      omega
  | throw => exact Nat.le_refl _
  | ub => exact Nat.le_refl _
  | fuel => exact Nat.le_refl _

theorem run_cap [BEq α] [Inhabited α] {mem : Mem} {grow : ℕ → ℕ → ℕ} (hg : ∀ c n, n ≤ grow c n) : ∀ (ops : List (VOp α)) (s s' : Vec α),
    (∀ o ∈ ops, ¬ o.Refills) → s.WF → VOp.run mem grow ops s = some s' → s.cap ≤ s'.cap ∧ s'.WF := by
  intro ops
  induction ops with
  | nil => intro s s' _ W hr; cases hr; exact ⟨Nat.le_refl _, W⟩
  | cons o ops ih =>
    intro s s' ho W hr
    have h1 := step_cap (mem := mem) hg o (ho o List.mem_cons_self) s
    have hw := step_wf (mem := mem) hg W o
    rw [VOp.run] at hr
    rcases e : o.step mem grow s with ⟨r, t⟩
    rw [e] at h1 hr hw
    have next : t.WF → VOp.run mem grow ops t = some s' → s.cap ≤ s'.cap ∧ s'.WF := fun hw hr => by
      obtain ⟨a, b⟩ := ih t s' (fun o h => ho o (List.mem_cons_of_mem _ h)) hw hr
      exact ⟨Nat.le_trans h1 a, b⟩
    cases r with
    | ok => exact next (hw (.inl rfl)) hr
    | throw m => exact next (hw (.inr ⟨m, rfl⟩)) hr
    | ub => cases hr
    | fuel => cases hr

/-- Appending within the capacity. -/
theorem appends_keep [DecidableEq α] [Inhabited α] {grow : ℕ → ℕ → ℕ} (hg : ∀ c n, n ≤ grow c n) : ∀ (es : List α) (s : Vec α), s.WF →
    s.l.length + es.length ≤ s.cap → s.l.length + es.length ≤ maxLen → ∃ s', VOp.run .lenient grow (es.map (fun e => .op (.append e))) s = some s' ∧
      s'.l = s.l ++ es ∧ ∀ i c : ℕ, s.slots[i]? = some c → ∃ x, s.l[i]? = some x ∧ s'.read c = .ok x := by
  intro es
  induction es with
  | nil => intro s W _ _; exact ⟨s, rfl, by simp, fun i c hi => read_place W hi⟩
  | cons e es ih =>
    intro s W hc hm
    rw [List.length_cons] at hc hm
    have habs : (LOp.append e).abs s.l = .ok (none, s.l ++ [e]) := by simp only [LOp.abs]; rw [if_neg (by omega)]
    have h := on_op (.append e) s.l (by omega) trivial trivial habs
    have hcap : (s.after grow (.op (.append e)) (s.l ++ [e])).cap = s.cap := by
      show (if (VOp.op (.append e) : VOp α).replaces then grow 0 (s.l ++ [e]).length else if (s.l ++ [e]).length ≤ s.cap then s.cap else grow s.cap (s.l ++ [e]).length) = _
      rw [if_neg (show ¬ (VOp.op (.append e) : VOp α).replaces = true from Bool.false_ne_true), if_pos (by simp; omega)]
    have hlen : (s.l ++ [e]).length = s.l.length + 1 := by simp
    obtain ⟨s', h1, h2, h3⟩ := ih (s.after grow (.op (.append e)) (s.l ++ [e])) (Vec.after_wf hg W _ _)
      (by rw [hcap]; show (s.l ++ [e]).length + _ ≤ _; omega) (by show (s.l ++ [e]).length + _ ≤ _; omega)
    refine ⟨s', ?_, ?_, ?_⟩
    · rw [List.map_cons, VOp.run, step_of_on h]
      exact h1
    · rw [h2]
      show (s.l ++ [e]) ++ es = _
      simp
    · intro i c hi
      have hlt : i < s.l.length := by
        rw [← W.len]
        by_contra hn
        rw [List.getElem?_eq_none (by omega)] at hi; cases hi
      have hi' : (s.after grow (.op (.append e)) (s.l ++ [e])).slots[i]? = some c := by
        simp only [Vec.after, VOp.stay]
        rw [if_pos (by omega), List.getElem?_append_left (by rw [List.length_take, W.len]; simp; omega),
          List.getElem?_take_of_lt (by simp; omega)]
        exact hi
      obtain ⟨x, g1, g2⟩ := h3 i c hi'
      refine ⟨x, ?_, g2⟩
      rw [← g1]
      exact (List.getElem?_append_left hlt).symm

/-- C85, a list that once had room for `s.cap` elements keeps that room through every member but `uniquify` and `*=`: references taken
later survive as many appends as fit in. -/
theorem C85_room [DecidableEq α] [Inhabited α] (grow : ℕ → ℕ → ℕ) (hg : ∀ c n, n ≤ grow c n) (s t : Vec α) (W : s.WF) (ops : List (VOp α))
    (ho : ∀ o ∈ ops, ¬ o.Refills) (hr : VOp.run .lenient grow ops s = some t) (es : List α) (h : t.l.length + es.length ≤ s.cap)
    (hm : t.l.length + es.length ≤ maxLen) :
    ∃ t', VOp.run .lenient grow (es.map (fun e => .op (.append e))) t = some t' ∧ t'.l = t.l ++ es ∧
      ∀ i c : ℕ, t.slots[i]? = some c → ∃ x, t.l[i]? = some x ∧ t'.read c = .ok x := by
  obtain ⟨h1, W'⟩ := run_cap hg ops s t ho W hr
  exact appends_keep hg es t W' (by omega) hm

/-- A list of three elements with room for four: after `clear`, four appends fit in. -/
example : Vec.WF (⟨[1, 2, 3], [0, 1, 2], 4, 3⟩ : Vec ℤ) ∧ ¬ (VOp.op .clear : VOp ℤ).Refills ∧
    VOp.run .lenient (fun _ n => n) [.op .clear] (⟨[1, 2, 3], [0, 1, 2], 4, 3⟩ : Vec ℤ) = some ⟨[], [], 4, 3⟩ :=
  ⟨⟨rfl, by decide, by decide, by decide⟩, fun h => h, rfl⟩

/-- C85 fails after `l *= 1`, also if there was room: the new buffer is made for the elements it has (`List(n)`, so that `grow 0 n = n`),
and the next append loses every reference. -/
theorem C85_room_not [DecidableEq α] [Inhabited α] (grow : ℕ → ℕ → ℕ) (hg : ∀ c n, n ≤ grow c n) (h0 : ∀ n, grow 0 n = n) (s : Vec α) (W : s.WF)
    (hl : s.l.length < maxLen) (e : α) :
    ∃ t t', (VOp.mulAssign 1).step .lenient grow s = (.ok (), t) ∧ t.l = s.l ∧ (VOp.op (.append e)).step .lenient grow t = (.ok (), t') ∧
      ∀ i c : ℕ, t.slots[i]? = some c → t'.read c = .ub .badDeref := by
  have hI : (maxLen : ℤ) = INT_MAX := rfl
  have h : (VOp.mulAssign 1 : VOp α).on .lenient s.l = (.ok (), s.l) := by
    have := ((C34_list_repeat_partial s.l (by omega) 1).1 (by omega) (by omega)).2
    simp only [VOp.on, this]
    simp
  have W' := Vec.after_wf hg W (.mulAssign 1) s.l
  have hc : (s.after grow (.mulAssign 1) s.l).cap = s.l.length := by
    show (if (VOp.mulAssign 1 : VOp α).replaces then grow 0 s.l.length else if s.l.length ≤ s.cap then s.cap else grow s.cap s.l.length) = _
    rw [if_pos (show (VOp.mulAssign 1 : VOp α).replaces = true from rfl), h0]
  have habs : (LOp.append e).abs s.l = .ok (none, s.l ++ [e]) := by simp only [LOp.abs]; rw [if_neg (by omega)]
  have h2 := on_op (.append e) s.l (by omega) trivial trivial habs
  refine ⟨_, _, step_of_on h, rfl, step_of_on (s := s.after grow (.mulAssign 1) s.l) h2, fun i c hi => ?_⟩
  refine (read_after (grow := grow) hg W' (show (VOp.op (.append e)).on .lenient (s.after grow (.mulAssign 1) s.l).l = _ from h2) hi).2 ?_
  simp only [VOp.stay, hc]
  rw [if_neg (show ¬ (s.after grow (.mulAssign 1) s.l).l.length < s.l.length from Nat.lt_irrefl _)]
  omega

end Lst
end Pyincpp
