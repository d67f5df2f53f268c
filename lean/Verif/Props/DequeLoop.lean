import Verif.Model.DequeLoop
import Verif.Props.DequeRef

/-! # C92: loops over a `Deque` that is changed -/

namespace Pyincpp
namespace Dq

variable {α : Type}

/-- The operation inserts an element. (At `INT_MAX` elements pushing throws.) -/
def Inserts (d : List α) : DOp α → Bool
  | .pushBack _ => d.length != maxLen
  | .pushFront _ => d.length != maxLen
  | .extendBack m => !m.isEmpty
  | .extendFront m => !m.isEmpty
  | _ => false

/-- The operation erases the last element. -/
def ErasesLast (d : List α) : DOp α → Bool
  | .popBack => !d.isEmpty
  | .popFront => d.length == 1
  | .clear => true
  | _ => false

/-- Where an iterator to the index `i` is after the operation; `none`: it is lost. With `e`, also if the end is lost. -/
def hold (e : Bool) (d : List α) (i : ℕ) (op : DOp α) : Option ℕ :=
  if Inserts d op || (e && ErasesLast d op) then none else follow d i op

/-- The same over a history. -/
def holdAll (e : Bool) : List (DOp α) → List α → ℕ → Option ℕ
  | [], _, i => some i
  | op :: ops, d, i => (hold e d i op).bind (fun j => holdAll e ops (after d op) j)

/-- What a loop over the deque visits, from the index `i` on: `v` are the elements, the deque is then `some d`, or (`none`) an iterator has been lost.
`next` says where the loop is after a body. -/
inductive Walk (body : α → List (DOp α)) (next : List (DOp α) → List α → ℕ → Option ℕ) : List α → ℕ → List α → Option (List α) → Prop
  | done (d : List α) (i : ℕ) : d.length ≤ i → Walk body next d i [] (some d)
  | visit (d : List α) (i j : ℕ) (x : α) (v : List α) (r : Option (List α)) : d[i]? = some x → DOp.FairRun d (body x) → next (body x) d i = some j →
      Walk body next (DOp.absRun d (body x)).2 (j + 1) v r → Walk body next d i (x :: v) r
  | lost (d : List α) (i : ℕ) (x : α) : d[i]? = some x → DOp.FairRun d (body x) → next (body x) d i = none → Walk body next d i [x] none

/-! ## One operation -/

theorem after_length (d : List α) (op : DOp α) : (Inserts d op = true ↔ d.length < (after d op).length) := by
  unfold after
  cases op with
  | pushBack e => simp only [Inserts, DOp.abs]; split <;> rename_i h <;> split at h <;> cases h <;> simp [*]
  | pushFront e => simp only [Inserts, DOp.abs]; split <;> rename_i h <;> split at h <;> cases h <;> simp [*]
  | popBack => simp only [Inserts, DOp.abs]; split <;> rename_i h <;> split at h <;> cases h <;> simp
  | popFront => simp only [Inserts, DOp.abs]; split <;> rename_i h <;> split at h <;> cases h <;> simp
  | back => simp only [Inserts, DOp.abs]; split <;> rename_i h <;> split at h <;> cases h <;> simp
  | front => simp only [Inserts, DOp.abs]; split <;> rename_i h <;> split at h <;> cases h <;> simp
  | get i => simp only [Inserts, DOp.abs]; split <;> rename_i h <;> split at h <;> cases h <;> simp
  | assign i e => simp only [Inserts, DOp.abs]; split <;> rename_i h <;> split at h <;> cases h <;> simp
  | extendBack m => cases m <;> simp [Inserts, DOp.abs]
  | extendFront m => cases m <;> (simp [Inserts, DOp.abs]; try omega)
  | rotL n => simp [Inserts, DOp.abs, rotated]
  | rotR n => simp [Inserts, DOp.abs, rotated]
  | reverse => simp [Inserts, DOp.abs]
  | clear => simp [Inserts, DOp.abs]

/-- The contents. -/
def Iters.vals (s : Iters α) : List α := s.c.vals

theorem vals_length (c : Cells α) : c.vals.length = c.d.length := by simp [Cells.vals]

/-- What the iterators of a loop depend on. -/
def Iters.mark (e : Bool) (s : Iters α) : ℕ × ℕ := (s.age, if e then s.tail else 0)

theorem iters_step (s : Iters α) (W : s.c.WF) (op : DOp α) (hf : op.Fair s.vals) :
    ((s.step op).1 = .ok () ∨ ∃ m, (s.step op).1 = .throw m) ∧ StepOk s.c (s.step op).2.c op ∧
    (s.step op).2.age = (if Inserts s.vals op then s.age + 1 else s.age) ∧
    (s.step op).2.tail = (if ErasesLast s.vals op then s.tail + 1 else s.tail) := by
  obtain ⟨h, S⟩ := step_ok s.c W op hf
  refine ⟨h, S, ?_, ?_⟩
  · simp only [Iters.step, inserts]
    have := after_length s.c.vals op
    rw [← S.vals, vals_length, vals_length] at this
    by_cases hi : Inserts s.c.vals op
    · simp [Iters.vals, hi, this.1 hi]
    · simp [Iters.vals, hi, mt this.2 hi]
  · simp only [Iters.step]
    have hl : (s.c.step op).2.d.length = (after s.c.vals op).length := by rw [← S.vals, vals_length]
    have e : losesEnd s.c.d (s.c.step op).2.d op = ErasesLast s.vals op := by
      have hd : s.c.d.length = s.c.vals.length := (vals_length _).symm
      generalize (s.c.step op).2.d = d' at hl
      cases op with
      | popBack =>
        simp only [losesEnd, ErasesLast, Iters.vals, hl, hd]
        cases hv : s.c.vals using List.reverseRecOn <;> simp [after, DOp.abs]
      | popFront =>
        simp only [losesEnd, ErasesLast, Iters.vals, hd]
        have h0 : d'.isEmpty = decide (d'.length = 0) := by cases d' <;> rfl
        rw [h0, hl]
        cases hv : s.c.vals with
        | nil => simp [after, DOp.abs]
        | cons x xs => cases xs <;> simp [after, DOp.abs]
      | _ => rfl
    rw [e]

theorem exec_cons {s : Iters α} {op : DOp α} {ops : List (DOp α)} (h : (s.step op).1 = .ok () ∨ ∃ m, (s.step op).1 = .throw m) :
    Iters.exec (op :: ops) s = Iters.exec ops (s.step op).2 := by
  rw [Iters.exec]
  cases hs : s.step op with
  | mk r s1 =>
    rw [hs] at h
    rcases h with h | ⟨m, h⟩ <;> simp only at h <;> subst h <;> rfl

/-- A body, whatever the iterators are. -/
theorem exec_ok : ∀ (ops : List (DOp α)) (s : Iters α), s.c.WF → DOp.FairRun s.vals ops →
    ∃ s', Iters.exec ops s = .ok s' ∧ s'.c.WF ∧ s'.vals = (DOp.absRun s.vals ops).2 ∧ s.age ≤ s'.age ∧ s.tail ≤ s'.tail ∧
      ∀ c < s.c.next, c ∉ s.c.d.map Prod.fst → c ∉ s'.c.d.map Prod.fst
  | [], s, W, _ => ⟨s, rfl, W, rfl, le_rfl, le_rfl, fun _ _ h => h⟩
  | op :: ops, s, W, hf => by
    obtain ⟨h1, h2⟩ := fair_rest hf
    obtain ⟨a, S, b, c⟩ := iters_step s W op h1
    have hv : (s.step op).2.vals = after s.vals op := S.vals
    rw [← hv] at h2
    obtain ⟨s', e1, W', e2, e3, e4, e5⟩ := exec_ok ops _ S.wf h2
    refine ⟨s', by rw [exec_cons a, e1], W', by rw [e2, hv, absRun_cons], ?_, ?_, fun c hc hn => ?_⟩
    · rw [b] at e3; split at e3 <;> omega
    · rw [c] at e4; split at e4 <;> omega
    · exact e5 c (Nat.lt_of_lt_of_le hc S.mono) fun h => hn (S.old c h hc)

theorem mark_lt {e : Bool} {s s' : Iters α} (h1 : s.age ≤ s'.age) (h2 : s.tail ≤ s'.tail) {t : Iters α} (h3 : s'.age ≤ t.age) (h4 : s'.tail ≤ t.tail)
    (h : s'.mark e ≠ s.mark e) : t.mark e ≠ s.mark e := by
  unfold Iters.mark at h ⊢
  intro ht
  simp only [Prod.mk.injEq] at ht
  refine h ?_
  simp only [Prod.mk.injEq]
  refine ⟨by omega, ?_⟩
  cases e with
  | false => rfl
  | true => simp only [if_true] at ht ⊢; omega

/-- A body, and the iterator to the index `i`. -/
theorem exec_hold (e : Bool) : ∀ (ops : List (DOp α)) (s : Iters α) (_ : s.c.WF) (_ : DOp.FairRun s.vals ops) {i c : ℕ} {x : α} (_ : s.c.d[i]? = some (c, x))
    {s' : Iters α} (_ : Iters.exec ops s = .ok s'),
    match holdAll e ops s.vals i with
    | some j => s'.mark e = s.mark e ∧ ∃ y, s'.c.d[j]? = some (c, y)
    | none => s'.mark e ≠ s.mark e ∨ c ∉ s'.c.d.map Prod.fst
  | [], s, W, _, i, c, x, hi, s', hr => by cases hr; exact ⟨rfl, x, hi⟩
  | op :: ops, s, W, hf, i, c, x, hi, s', hr => by
    obtain ⟨h1, h2⟩ := fair_rest hf
    obtain ⟨a, S, b, t⟩ := iters_step s W op h1
    have hv : (s.step op).2.vals = after s.vals op := S.vals
    rw [← hv] at h2
    rw [exec_cons a] at hr
    have hb : s.age ≤ (s.step op).2.age := by rw [b]; split <;> omega
    have ht : s.tail ≤ (s.step op).2.tail := by rw [t]; split <;> omega
    obtain ⟨s'', e1, -, -, e3, e4, e5⟩ := exec_ok ops _ S.wf h2
    rw [hr] at e1
    cases e1
    have hk := S.keep i c x hi
    rw [holdAll]
    by_cases hh : (Inserts s.vals op || (e && ErasesLast s.vals op)) = true
    · have : hold e s.vals i op = none := by rw [hold, if_pos hh]
      rw [this]
      refine .inl (mark_lt hb ht e3 e4 ?_)
      unfold Iters.mark
      rw [b, t]
      rw [Bool.or_eq_true, Bool.and_eq_true] at hh
      intro hm
      simp only [Prod.mk.injEq] at hm
      rcases hh with h | ⟨h, h'⟩
      · rw [if_pos h] at hm; omega
      · subst h; rw [if_pos h'] at hm; simp at hm
    · have he : hold e s.vals i op = follow s.c.vals i op := by rw [hold, if_neg hh]; rfl
      rw [he]
      cases hfo : follow s.c.vals i op with
      | none =>
        rw [hfo] at hk
        exact .inr (e5 c (Nat.lt_of_lt_of_le (W.below _ (List.mem_of_getElem? hi)) S.mono) hk)
      | some j =>
        rw [hfo] at hk
        obtain ⟨y, hy⟩ := hk
        have I := exec_hold e ops _ S.wf h2 hy hr
        have hm : (s.step op).2.mark e = s.mark e := by
          unfold Iters.mark
          rw [b, t]
          rw [Bool.or_eq_true, Bool.and_eq_true, not_or, not_and] at hh
          rw [if_neg hh.1]
          cases e with
          | false => rfl
          | true => simp only [if_true]; rw [if_neg (hh.2 rfl)]
        rw [hv, hm] at I
        exact I

/-! ## Iterators -/

theorem behind_at (s : Iters α) {c : ℕ} {x : α} : ∀ (l : List (ℕ × α)) (i : ℕ), (l.map Prod.fst).Nodup → l[i]? = some (c, x) →
    s.behind c l = .ok (s.first (l.drop (i + 1)))
  | [], i, _, h => by simp at h
  | p :: l, 0, _, h => by
    simp only [List.getElem?_cons_zero, Option.some.injEq] at h
    subst h
    simp [Iters.behind]
  | p :: l, i + 1, hn, h => by
    rw [List.getElem?_cons_succ] at h
    rw [List.map_cons, List.nodup_cons] at hn
    have : p.1 ≠ c := fun e => hn.1 (e ▸ List.mem_map_of_mem (List.mem_of_getElem? h))
    rw [Iters.behind, if_neg (by simpa using this), behind_at s l i hn.2 h, List.drop_succ_cons]

theorem behind_lost (s : Iters α) {c : ℕ} : ∀ (l : List (ℕ × α)), c ∉ l.map Prod.fst → s.behind c l = .ub .badDeref
  | [], _ => rfl
  | p :: l, h => by
    rw [List.map_cons, List.mem_cons, not_or] at h
    rw [Iters.behind, if_neg (by simpa using fun e => h.1 e.symm), behind_lost s l h.2]

theorem inc_cases (s : Iters α) (c a : ℕ) : (∃ it, s.inc (.node c a) = .ok it) ∨ s.inc (.node c a) = .ub .badDeref := by
  rw [Iters.inc]
  split
  · generalize s.c.d = l
    induction l with
    | nil => exact .inr rfl
    | cons p l ih =>
      rw [Iters.behind]
      split
      · exact .inl ⟨_, rfl⟩
      · exact ih
  · exact .inr rfl

/-- The iterator to the index `i`. -/
def Iters.nth (s : Iters α) (i : ℕ) : It := s.first (s.c.d.drop i)

theorem nth_place (s : Iters α) {i c : ℕ} {x : α} (h : s.c.d[i]? = some (c, x)) : s.nth i = .node c s.age := by
  have hi : i < s.c.d.length := by
    by_contra hn; rw [List.getElem?_eq_none (by omega)] at h; cases h
  rw [List.getElem?_eq_getElem hi] at h
  rw [Iters.nth, List.drop_eq_getElem_cons hi, Option.some.inj h]
  rfl

theorem nth_end (s : Iters α) {i : ℕ} (h : s.vals.length ≤ i) : s.nth i = s.end := by
  rw [Iters.vals, vals_length] at h
  rw [Iters.nth, List.drop_eq_nil_of_le h]
  rfl

theorem place_of {s : Iters α} {i : ℕ} {x : α} (h : s.vals[i]? = some x) : ∃ c, s.c.d[i]? = some (c, x) := by
  rw [Iters.vals, Cells.vals, List.getElem?_map] at h
  cases hi : s.c.d[i]? with
  | none => rw [hi] at h; cases h
  | some p => rw [hi] at h; cases h; exact ⟨p.1, rfl⟩

theorem inc_held {s s' : Iters α} {e : Bool} (W : s'.c.WF) (hm : s'.mark e = s.mark e) {j c : ℕ} {y : α} (h : s'.c.d[j]? = some (c, y)) :
    s'.inc (.node c s.age) = .ok (s'.nth (j + 1)) := by
  have ha : s.age = s'.age := (congrArg Prod.fst hm).symm
  rw [Iters.inc, if_pos ha, behind_at s' _ j W.once h]
  rfl

/-- The loop with iterators. -/
theorem iter_walk {body : α → List (DOp α)} {d : List α} {i : ℕ} {v : List α} {r : Option (List α)} (hw : Walk body (holdAll false) d i v r) :
    ∀ (s : Iters α) (u : List α), s.c.WF → s.vals = d →
      match r with
      | some t => ∃ s', s'.vals = t ∧ ∀ k, v.length < k → Iters.iterLoop body k (s.nth i) s u = .ok (u ++ v, s')
      | none => ∀ k, v.length < k → Iters.iterLoop body k (s.nth i) s u = .ub .badDeref := by
  induction hw with
  | done d i h =>
    intro s u W hs
    refine ⟨s, hs, fun k hk => ?_⟩
    obtain ⟨k, rfl⟩ := Nat.exists_eq_succ_of_ne_zero (by simp at hk; omega : k ≠ 0)
    rw [nth_end s (by rw [hs]; exact h), Iters.iterLoop, if_pos rfl, List.append_nil]
  | lost d i x hx hf hn =>
    intro s u W hs k hk
    subst hs
    obtain ⟨k, rfl⟩ := Nat.exists_eq_succ_of_ne_zero (by simp at hk; omega : k ≠ 0)
    obtain ⟨c, hc⟩ := place_of hx
    obtain ⟨s', e1, -⟩ := exec_ok _ s W hf
    have H := exec_hold false _ s W hf hc e1
    rw [hn] at H
    rw [nth_place s hc, Iters.iterLoop, if_neg (by simp [Iters.end]), Iters.deref, if_pos rfl, read_place W hc, Res.ok_bind, e1, Res.ok_bind]
    have : s'.inc (.node c s.age) = .ub .badDeref := by
      rw [Iters.inc]
      split
      · rename_i ha
        rcases H with H | H
        · exact absurd (by simp [Iters.mark, ha]) H
        · exact behind_lost s' _ H
      · rfl
    rw [this]
    rfl
  | visit d i j x v r hx hf hn _ ih =>
    intro s u W hs
    subst hs
    obtain ⟨c, hc⟩ := place_of hx
    obtain ⟨s', e1, W', e2, -⟩ := exec_ok _ s W hf
    have H := exec_hold false _ s W hf hc e1
    rw [hn] at H
    obtain ⟨hm, y, hy⟩ := H
    have step : ∀ k, Iters.iterLoop body (k + 1) (s.nth i) s u = Iters.iterLoop body k (s'.nth (j + 1)) s' (u ++ [x]) := fun k => by
      rw [nth_place s hc, Iters.iterLoop, if_neg (by simp [Iters.end]), Iters.deref, if_pos rfl, read_place W hc, Res.ok_bind, e1, Res.ok_bind,
        inc_held W' hm hy, Res.ok_bind]
    have I := ih s' (u ++ [x]) W' e2
    cases r with
    | some t =>
      obtain ⟨t', h1, h2⟩ := I
      refine ⟨t', h1, fun k hk => ?_⟩
      obtain ⟨k, rfl⟩ := Nat.exists_eq_succ_of_ne_zero (by simp at hk; omega : k ≠ 0)
      rw [step, h2 k (by simp at hk; omega)]
      simp
    | none =>
      intro k hk
      obtain ⟨k, rfl⟩ := Nat.exists_eq_succ_of_ne_zero (by simp at hk; omega : k ≠ 0)
      rw [step, I k (by simp at hk; omega)]

theorem range_walk {body : α → List (DOp α)} {d : List α} {i : ℕ} {v : List α} {r : Option (List α)} (hw : Walk body (holdAll true) d i v r) :
    ∀ (s : Iters α) (u : List α), s.c.WF → s.vals = d →
      match r with
      | some t => ∃ s', s'.vals = t ∧ ∀ k, v.length < k → Iters.rangeLoop body s.end k (s.nth i) s u = .ok (u ++ v, s')
      | none => ∀ k, v.length < k → Iters.rangeLoop body s.end k (s.nth i) s u = .ub .badDeref := by
  induction hw with
  | done d i h =>
    intro s u W hs
    refine ⟨s, hs, fun k hk => ?_⟩
    obtain ⟨k, rfl⟩ := Nat.exists_eq_succ_of_ne_zero (by simp at hk; omega : k ≠ 0)
    rw [nth_end s (by rw [hs]; exact h), Iters.rangeLoop, if_neg (by simp), if_pos rfl, List.append_nil]
  | lost d i x hx hf hn =>
    intro s u W hs k hk
    subst hs
    obtain ⟨k, rfl⟩ : ∃ j, k = j + 2 := ⟨k - 2, by simp at hk; omega⟩
    obtain ⟨c, hc⟩ := place_of hx
    obtain ⟨s', e1, -⟩ := exec_ok _ s W hf
    have H := exec_hold true _ s W hf hc e1
    rw [hn] at H
    rw [nth_place s hc, Iters.rangeLoop, if_neg (by simp), if_neg (by simp [Iters.end]), Iters.deref, if_pos rfl, read_place W hc, Res.ok_bind, e1,
      Res.ok_bind]
    by_cases hm : s'.mark true = s.mark true
    · have ha : s.age = s'.age := (congrArg Prod.fst hm).symm
      have : s'.inc (.node c s.age) = .ub .badDeref := by
        rw [Iters.inc, if_pos ha]
        exact behind_lost s' _ (H.resolve_left (not_not.2 hm))
      rw [this]
      rfl
    · have hend : s'.end ≠ s.end := fun h => hm (by
        unfold Iters.end at h
        simp only [It.last.injEq] at h
        simp [Iters.mark, h.1, h.2])
      rcases inc_cases s' c s.age with ⟨it, h⟩ | h
      · rw [h, Res.ok_bind, Iters.rangeLoop, if_pos hend]
      · rw [h]; rfl
  | visit d i j x v r hx hf hn _ ih =>
    intro s u W hs
    subst hs
    obtain ⟨c, hc⟩ := place_of hx
    obtain ⟨s', e1, W', e2, -⟩ := exec_ok _ s W hf
    have H := exec_hold true _ s W hf hc e1
    rw [hn] at H
    obtain ⟨hm, y, hy⟩ := H
    have he : s'.end = s.end := by
      unfold Iters.mark at hm
      simp only [if_true, Prod.mk.injEq] at hm
      unfold Iters.end
      rw [hm.1, hm.2]
    have step : ∀ k, Iters.rangeLoop body s.end (k + 1) (s.nth i) s u = Iters.rangeLoop body s'.end k (s'.nth (j + 1)) s' (u ++ [x]) := fun k => by
      rw [nth_place s hc, Iters.rangeLoop, if_neg (by simp), if_neg (by simp [Iters.end]), Iters.deref, if_pos rfl, read_place W hc, Res.ok_bind, e1,
        Res.ok_bind, inc_held W' hm hy, Res.ok_bind, he]
    have I := ih s' (u ++ [x]) W' e2
    cases r with
    | some t =>
      obtain ⟨t', h1, h2⟩ := I
      refine ⟨t', h1, fun k hk => ?_⟩
      obtain ⟨k, rfl⟩ := Nat.exists_eq_succ_of_ne_zero (by simp at hk; omega : k ≠ 0)
      rw [step, h2 k (by simp at hk; omega)]
      simp
    | none =>
      intro k hk
      obtain ⟨k, rfl⟩ := Nat.exists_eq_succ_of_ne_zero (by simp at hk; omega : k ≠ 0)
      rw [step, I k (by simp at hk; omega)]

theorem index_walk {body : α → List (DOp α)} {d : List α} {i : ℕ} {v : List α} {r : Option (List α)} (hw : Walk body (fun _ _ i => some i) d i v r) :
    ∀ (s : Iters α) (u : List α), s.c.WF → s.vals = d →
      ∃ t s', r = some t ∧ s'.vals = t ∧ ∀ k, v.length < k → Iters.indexLoop body k i s u = .ok (u ++ v, s') := by
  have hsz : ∀ s : Iters α, s.c.WF → size s.c.d = (s.vals.length : ℤ) := fun s W => by
    rw [Iters.vals, vals_length]
    have := W.len
    unfold size
    exact wrap32_eq (by unfold IsInt INT_MIN INT_MAX; unfold maxLen at this; omega)
  induction hw with
  | done d i h =>
    intro s u W hs
    refine ⟨d, s, rfl, hs, fun k hk => ?_⟩
    obtain ⟨k, rfl⟩ := Nat.exists_eq_succ_of_ne_zero (by simp at hk; omega : k ≠ 0)
    rw [Iters.indexLoop, hsz s W, if_neg (by rw [hs]; omega), List.append_nil]
  | lost d i x hx hf hn => cases hn
  | visit d i j x v r hx hf hn _ ih =>
    intro s u W hs
    subst hs
    cases hn
    have hlt : i < s.vals.length := by
      by_contra h; rw [List.getElem?_eq_none (by omega)] at hx; cases hx
    obtain ⟨c, hc⟩ := place_of hx
    obtain ⟨s', e1, W', e2, -⟩ := exec_ok _ s W hf
    obtain ⟨t, t', h0, h1, h2⟩ := ih s' (u ++ [x]) W' e2
    refine ⟨t, t', h0, h1, fun k hk => ?_⟩
    obtain ⟨k, rfl⟩ := Nat.exists_eq_succ_of_ne_zero (by simp at hk; omega : k ≠ 0)
    have hl := W.len
    have hld : i < s.c.d.length := by rwa [Iters.vals, vals_length] at hlt
    have hadd : iadd (i : ℤ) 1 = .ok ((i + 1 : ℕ) : ℤ) := by
      unfold iadd ck; rw [if_pos]
      · push_cast; rfl
      · unfold IsInt INT_MIN INT_MAX; unfold maxLen at hl; omega
    have hat : s.c.at (i : ℤ) = .ok c := by
      obtain ⟨q, hq, hg⟩ := (C33_deque_index s.c.d W.len i).1 ⟨by omega, by omega⟩
      rw [Int.toNat_natCast, hc] at hq
      cases hq
      rw [Cells.at, hg]
      rfl
    rw [Iters.indexLoop, hsz s W, if_pos (by omega), hat, Res.ok_bind, read_place W hc, Res.ok_bind, e1, Res.ok_bind, hadd, Res.ok_bind,
      h2 k (by simp at hk; omega)]
    simp

/-- C92, `for (int i = 0; i < d.size(); i++)`: the loop is defined whatever the bodies change, and visits the elements at the indices 0, 1, … of the deque
as it is then, until the index is not less than the size. -/
theorem C92_index (body : α → List (DOp α)) (s : Iters α) (W : s.c.WF) (v : List α) (r : Option (List α))
    (h : Walk body (fun _ _ i => some i) s.vals 0 v r) :
    ∃ t s', r = some t ∧ s'.vals = t ∧ Returns (fun k => Iters.indexLoop body k 0 s []) (v, s') := by
  obtain ⟨t, s', e, h1, I⟩ := index_walk h s [] W rfl
  exact ⟨t, s', e, h1, v.length + 1, fun k hk => by simpa using I k (by omega)⟩

/-- C92, `for (auto it = d.begin(); it != d.end(); ++it)`: after each body the loop goes on behind the element it was at, wherever that is now. It is
undefined exactly if a body inserts an element, at whichever end, or erases the element the loop is at. -/
theorem C92_iter_partial (body : α → List (DOp α)) (s : Iters α) (W : s.c.WF) (v : List α) :
    (∀ t, Walk body (holdAll false) s.vals 0 v (some t) → ∃ s', s'.vals = t ∧ Returns (fun k => Iters.iterLoop body k s.begin s []) (v, s')) ∧
    (Walk body (holdAll false) s.vals 0 v none → HitsUB (fun k => Iters.iterLoop body k s.begin s []) .badDeref) := by
  refine ⟨fun t h => ?_, fun h => ⟨v.length + 1, fun k hk => iter_walk h s [] W rfl k (by omega)⟩⟩
  obtain ⟨s', h1, h2⟩ := iter_walk h s [] W rfl
  exact ⟨s', h1, v.length + 1, fun k hk => by simpa [Iters.nth, Iters.begin] using h2 k (by omega)⟩

/-- C92, `for (const auto& x : d)`: the same, and undefined also if a body erases the last element. -/
theorem C92_range_partial (body : α → List (DOp α)) (s : Iters α) (W : s.c.WF) (v : List α) :
    (∀ t, Walk body (holdAll true) s.vals 0 v (some t) → ∃ s', s'.vals = t ∧ Returns (fun k => Iters.rangeLoop body s.end k s.begin s []) (v, s')) ∧
    (Walk body (holdAll true) s.vals 0 v none → HitsUB (fun k => Iters.rangeLoop body s.end k s.begin s []) .badDeref) := by
  refine ⟨fun t h => ?_, fun h => ⟨v.length + 1, fun k hk => range_walk h s [] W rfl k (by omega)⟩⟩
  obtain ⟨s', h1, h2⟩ := range_walk h s [] W rfl
  exact ⟨s', h1, v.length + 1, fun k hk => by simpa [Iters.nth, Iters.begin] using h2 k (by omega)⟩

/-! ## What this means -/

/-- A body that only pushes one element. -/
def Pushes (op : DOp α) : Prop := ∃ e, op = .pushBack e ∨ op = .pushFront e

/-- C92, the trap: a loop over a deque that is not empty, whose body pushes an element at either end, is undefined, with iterators and
range-based. (References to the elements stay valid: C86.) -/
theorem C92_push_not (s : Iters α) (W : s.c.WF) (hs : s.vals ≠ []) (hl : s.vals.length < maxLen) (op : DOp α) (hp : Pushes op) :
    HitsUB (fun k => Iters.iterLoop (fun _ => [op]) k s.begin s []) .badDeref ∧
    HitsUB (fun k => Iters.rangeLoop (fun _ => [op]) s.end k s.begin s []) .badDeref := by
  have h0 : 0 < s.vals.length := List.length_pos_iff.2 hs
  have hi : Inserts s.vals op = true := by
    obtain ⟨e, rfl | rfl⟩ := hp <;> simp [Inserts] <;> omega
  have hf : DOp.FairRun s.vals [op] := by
    obtain ⟨e, rfl | rfl⟩ := hp <;> refine ⟨trivial, ?_⟩ <;> split <;> trivial
  have hh : ∀ e, holdAll e [op] s.vals 0 = none := fun e => by rw [holdAll, hold, if_pos (by rw [hi]; rfl)]; rfl
  exact ⟨(C92_iter_partial _ s W [s.vals[0]]).2 (.lost _ _ _ (List.getElem?_eq_getElem h0) hf (hh _)),
    (C92_range_partial _ s W [s.vals[0]]).2 (.lost _ _ _ (List.getElem?_eq_getElem h0) hf (hh _))⟩

/-- C92: so is one whose body pops the first element. -/
theorem C92_pop_front_not (s : Iters α) (W : s.c.WF) (hs : s.vals ≠ []) :
    HitsUB (fun k => Iters.iterLoop (fun _ => [.popFront]) k s.begin s []) .badDeref ∧
    HitsUB (fun k => Iters.rangeLoop (fun _ => [.popFront]) s.end k s.begin s []) .badDeref := by
  have h0 : 0 < s.vals.length := List.length_pos_iff.2 hs
  have hf : DOp.FairRun s.vals [.popFront] := ⟨trivial, by split <;> trivial⟩
  have hh : ∀ e, holdAll e [.popFront] s.vals 0 = none := fun e => by
    rw [holdAll, hold]
    split <;> rfl
  exact ⟨(C92_iter_partial _ s W [s.vals[0]]).2 (.lost _ _ _ (List.getElem?_eq_getElem h0) hf (hh _)),
    (C92_range_partial _ s W [s.vals[0]]).2 (.lost _ _ _ (List.getElem?_eq_getElem h0) hf (hh _))⟩

theorem popBack_after (d : List α) : (DOp.absRun d [.popBack]).2 = d.dropLast := by
  cases d using List.reverseRecOn <;> simp [DOp.absRun, DOp.abs]

theorem popBack_fair (d : List α) : DOp.FairRun d [.popBack] := ⟨trivial, by split <;> trivial⟩

theorem popBack_walk : ∀ (n : ℕ) (d : List α) (i : ℕ), i ≤ d.length → d.length - i = n →
    (Even n → Walk (fun _ => [.popBack]) (holdAll false) d i ((d.take (i + n / 2)).drop i) (some (d.take (i + n / 2)))) ∧
    (¬ Even n → ∃ v, Walk (fun _ => [.popBack]) (holdAll false) d i v none)
  | 0, d, i, hi, hn => ⟨fun _ => by
      rw [Nat.zero_div, Nat.add_zero, List.drop_eq_nil_of_le (by simp), List.take_of_length_le (by omega)]
      exact .done d i (by omega), fun h => absurd (by simp) h⟩
  | 1, d, i, hi, hn => ⟨fun h => absurd h (by simp), fun _ => by
      have hlt : i < d.length := by omega
      refine ⟨[d[i]], .lost d i _ (List.getElem?_eq_getElem hlt) (popBack_fair d) ?_⟩
      simp only [holdAll, hold, Inserts, follow, Bool.false_and, Bool.or_false, Bool.false_eq_true, if_false]
      rw [if_pos (by omega)]
      rfl⟩
  | n + 2, d, i, hi, hn => by
    have hlt : i < d.length := by omega
    have hh : holdAll false [.popBack] d i = some i := by
      simp only [holdAll, hold, Inserts, follow, Bool.false_and, Bool.or_false, Bool.false_eq_true, if_false]
      rw [if_neg (by omega)]
      rfl
    obtain ⟨h1, h2⟩ := popBack_walk n d.dropLast (i + 1) (by simp; omega) (by simp; omega)
    have par : Even (n + 2) ↔ Even n := by rw [Nat.even_add]; simp
    rw [par]
    refine ⟨fun he => ?_, fun he => ?_⟩
    · have W := h1 he
      have e : d.dropLast.take (i + 1 + n / 2) = d.take (i + (n + 2) / 2) := by
        rw [List.dropLast_eq_take, List.take_take]
        congr 1
        omega
      rw [e, ← popBack_after] at W
      have V := Walk.visit d i i d[i] _ _ (List.getElem?_eq_getElem hlt) (popBack_fair d) hh W
      have : (d.take (i + (n + 2) / 2)).drop i = d[i] :: (d.take (i + (n + 2) / 2)).drop (i + 1) := by
        rw [List.drop_eq_getElem_cons (by simp; omega)]
        simp
      rw [this]
      exact V
    · obtain ⟨v, hv⟩ := h2 he
      rw [← popBack_after] at hv
      exact ⟨d[i] :: v, .visit d i i d[i] v none (List.getElem?_eq_getElem hlt) (popBack_fair d) hh hv⟩

/-- C92: a loop with iterators whose body pops the last element visits the first half and leaves it if the number of elements is even; if it is odd,
the loop pops the middle element while at it, and is undefined. Range-based it is undefined on every deque that is not empty. -/
theorem C92_pop_back_not (s : Iters α) (W : s.c.WF) :
    (Even s.vals.length → ∃ s', s'.vals = s.vals.take (s.vals.length / 2) ∧
      Returns (fun k => Iters.iterLoop (fun _ => [.popBack]) k s.begin s []) (s.vals.take (s.vals.length / 2), s')) ∧
    (¬ Even s.vals.length → HitsUB (fun k => Iters.iterLoop (fun _ => [.popBack]) k s.begin s []) .badDeref) ∧
    (s.vals ≠ [] → HitsUB (fun k => Iters.rangeLoop (fun _ => [.popBack]) s.end k s.begin s []) .badDeref) := by
  obtain ⟨h1, h2⟩ := popBack_walk _ s.vals 0 (Nat.zero_le _) rfl
  refine ⟨fun he => ?_, fun he => ?_, fun hs => ?_⟩
  · have := h1 (by simpa using he)
    simp only [Nat.sub_zero, Nat.zero_add, List.drop_zero] at this
    exact (C92_iter_partial _ s W _).1 _ this
  · obtain ⟨v, hv⟩ := h2 (by simpa using he)
    exact (C92_iter_partial _ s W v).2 hv
  · have h0 : 0 < s.vals.length := List.length_pos_iff.2 hs
    refine (C92_range_partial _ s W [s.vals[0]]).2 (.lost _ _ _ (List.getElem?_eq_getElem h0) (popBack_fair _) ?_)
    rw [holdAll, hold, if_pos (by cases h : s.vals <;> simp_all [ErasesLast, Inserts])]
    rfl

/-- Operations that neither insert nor erase. -/
def InPlace : DOp α → Prop
  | .back | .front | .reverse => True
  | .get i | .assign i _ | .rotL i => IsInt i
  | .rotR i => IsInt i ∧ i ≠ INT_MIN
  | _ => False

theorem inPlace_one {op : DOp α} (h : InPlace op) (d : List α) (i : ℕ) : op.Fair d ∧ hold true d i op = some i ∧ (after d op).length = d.length := by
  have len : (after d op).length = d.length := by
    unfold after
    cases op with
    | back => simp only [DOp.abs]; split <;> rename_i h <;> split at h <;> cases h <;> rfl
    | front => simp only [DOp.abs]; split <;> rename_i h <;> split at h <;> cases h <;> rfl
    | get i => simp only [DOp.abs]; split <;> rename_i h <;> split at h <;> cases h <;> rfl
    | assign i e => simp only [DOp.abs]; split <;> rename_i h <;> split at h <;> cases h <;> simp
    | rotL n => simp [DOp.abs, rotated]
    | rotR n => simp [DOp.abs, rotated]
    | reverse => simp [DOp.abs]
    | _ => exact h.elim
  refine ⟨?_, ?_, len⟩
  · cases op with
    | rotR n => exact ⟨h.1, .inl h.2⟩
    | _ => first | exact h | trivial
  · cases op with
    | _ => first | exact h.elim | rfl

theorem inPlace_all : ∀ (ops : List (DOp α)), (∀ op ∈ ops, InPlace op) → ∀ (d : List α) (i : ℕ),
    DOp.FairRun d ops ∧ holdAll true ops d i = some i ∧ (DOp.absRun d ops).2.length = d.length
  | [], _, d, i => ⟨trivial, rfl, rfl⟩
  | op :: ops, h, d, i => by
    obtain ⟨h1, h2, h3⟩ := inPlace_one (h op List.mem_cons_self) d i
    obtain ⟨a, b, c⟩ := inPlace_all ops (fun o ho => h o (List.mem_cons_of_mem _ ho)) (after d op) i
    refine ⟨⟨h1, ?_⟩, ?_, ?_⟩
    · unfold after at a
      cases ha : op.abs d with
      | ok q => rw [ha] at a; exact a
      | error m => rw [ha] at a; exact a
    · rw [holdAll, h2]; exact b
    · rw [absRun_cons, c, h3]

/-- C92: a range-based loop whose bodies neither insert nor erase is defined and makes one round for each element. -/
theorem C92_in_place (body : α → List (DOp α)) (hb : ∀ x, ∀ op ∈ body x, InPlace op) (s : Iters α) (W : s.c.WF) :
    ∃ v t s', v.length = s.vals.length ∧ s'.vals = t ∧ Walk body (holdAll true) s.vals 0 v (some t) ∧
      Returns (fun k => Iters.rangeLoop body s.end k s.begin s []) (v, s') := by
  have walk : ∀ (n : ℕ) (d : List α) (i : ℕ), d.length - i = n → i ≤ d.length → ∃ v t, v.length = n ∧ Walk body (holdAll true) d i v (some t) := by
    intro n
    induction n with
    | zero => intro d i hn hi; exact ⟨[], d, rfl, .done d i (by omega)⟩
    | succ n ih =>
      intro d i hn hi
      have hlt : i < d.length := by omega
      obtain ⟨a, b, c⟩ := inPlace_all (body d[i]) (hb _) d i
      obtain ⟨v, t, h1, h2⟩ := ih (DOp.absRun d (body d[i])).2 (i + 1) (by omega) (by omega)
      exact ⟨d[i] :: v, t, by simp [h1], .visit _ _ _ _ _ _ (List.getElem?_eq_getElem hlt) a b h2⟩
  obtain ⟨v, t, h1, h2⟩ := walk _ s.vals 0 rfl (Nat.zero_le _)
  obtain ⟨s', h3, h4⟩ := (C92_range_partial body s W v).1 t h2
  exact ⟨v, t, s', by omega, h3, h2, h4⟩

/-! ## Queues and stacks -/

theorem exec_fair : ∀ (ops : List (DOp α)) (d : List α), d.length ≤ maxLen → DOp.FairRun d ops →
    exec ops d = .ok (DOp.absRun d ops).2 ∧ (DOp.absRun d ops).2.length ≤ maxLen
  | [], d, hd, _ => ⟨rfl, hd⟩
  | op :: ops, d, hd, hf => by
    obtain ⟨h1, h2⟩ := fair_rest hf
    have hs := deque_step op d hd h1
    rw [absRun_cons, exec]
    unfold after at h2 ⊢
    cases ha : op.abs d with
    | ok q =>
      obtain ⟨r, d'⟩ := q
      rw [ha] at hs h2
      rw [hs.1]
      exact exec_fair ops d' hs.2 h2
    | error m =>
      rw [ha] at hs h2
      rw [hs]
      exact exec_fair ops d hd h2

/-- What a loop visits that takes one element after the other from the deque, until it is empty. `front` says from which end. -/
inductive Drains (body : α → List (DOp α)) (front : Bool) : List α → List α → Prop
  | done : Drains body front [] []
  | visit (d e : List α) (x : α) (v : List α) : (if front then d = x :: e else d = e ++ [x]) → DOp.FairRun e (body x) →
      Drains body front (DOp.absRun e (body x)).2 v → Drains body front d (x :: v)

/-- C92: loops that take elements from one end until the deque is empty are defined, whatever the bodies do to the deque; exceptions in the bodies
(a pop or a push that is refused) leave the deque as it is. -/
theorem C92_drain (body : α → List (DOp α)) (d : List α) (hd : d.length ≤ maxLen) (v : List α) :
    (Drains body true d v → Returns (fun k => queueLoop body k d []) (v, [])) ∧
    (Drains body false d v → Returns (fun k => stackLoop body k d []) (v, [])) := by
  have q : ∀ {d v : List α}, Drains body true d v → ∀ u : List α, d.length ≤ maxLen → ∀ k, v.length < k → queueLoop body k d u = .ok (u ++ v, []) := by
    intro d v h
    induction h with
    | done =>
      intro u _ k hk
      obtain ⟨k, rfl⟩ := Nat.exists_eq_succ_of_ne_zero (by simp at hk; omega : k ≠ 0)
      rw [queueLoop, if_pos (show isEmpty ([] : List α) = true from rfl), List.append_nil]
    | visit d e x v he hf _ ih =>
      intro u hl k hk
      obtain ⟨k, rfl⟩ := Nat.exists_eq_succ_of_ne_zero (by simp at hk; omega : k ≠ 0)
      rw [if_pos rfl] at he
      subst he
      have hp := popFront_run (x :: e) hl
      simp only at hp
      obtain ⟨h1, h2⟩ := exec_fair (body x) e (by simp at hl; omega) hf
      rw [queueLoop, if_neg (show ¬ isEmpty (x :: e) = true from Bool.false_ne_true), hp]
      simp only [andThen]
      rw [h1, Res.ok_bind, ih (u ++ [x]) h2 k (by simp at hk; omega)]
      simp
  have st : ∀ {d v : List α}, Drains body false d v → ∀ u : List α, d.length ≤ maxLen → ∀ k, v.length < k → stackLoop body k d u = .ok (u ++ v, []) := by
    intro d v h
    induction h with
    | done =>
      intro u _ k hk
      obtain ⟨k, rfl⟩ := Nat.exists_eq_succ_of_ne_zero (by simp at hk; omega : k ≠ 0)
      rw [stackLoop, if_pos (show isEmpty ([] : List α) = true from rfl), List.append_nil]
    | visit d e x v he hf _ ih =>
      intro u hl k hk
      obtain ⟨k, rfl⟩ := Nat.exists_eq_succ_of_ne_zero (by simp at hk; omega : k ≠ 0)
      rw [if_neg Bool.false_ne_true] at he
      subst he
      have hp := popBack_run (e ++ [x]) hl
      simp only [List.getLast?_append_cons, List.getLast?_singleton, List.dropLast_concat] at hp
      have hne : ¬ isEmpty (e ++ [x]) = true := by unfold isEmpty; simp
      obtain ⟨h1, h2⟩ := exec_fair (body x) e (by simp at hl; omega) hf
      rw [stackLoop, if_neg hne, hp]
      simp only [andThen]
      rw [h1, Res.ok_bind, ih (u ++ [x]) h2 k (by simp at hk; omega)]
      simp
  exact ⟨fun h => ⟨v.length + 1, fun k hk => by simpa using q h [] hd k (by omega)⟩,
    fun h => ⟨v.length + 1, fun k hk => by simpa using st h [] hd k (by omega)⟩⟩

/-- Taking two at a time: the third body pops from an empty deque, which is refused, and goes on. -/
example : Drains (fun x => if x = 3 then [.popBack, .pushBack 4] else [.popFront]) true [1, 2, 3] [1, 3, 4] ∧
    queueLoop (fun x => if x = 3 then [.popBack, .pushBack 4] else [.popFront]) 9 [1, 2, 3] [] = .ok ([1, 3, 4], []) := by
  refine ⟨.visit _ _ _ _ rfl ⟨trivial, trivial⟩ (.visit _ _ _ _ rfl ⟨trivial, trivial, ?_⟩ (.visit _ _ _ _ rfl ⟨trivial, trivial⟩ .done)), by decide +kernel⟩
  trivial

theorem exec_pushes : ∀ (xs d : List α), d.length + xs.length ≤ maxLen → exec (xs.map .pushBack) d = .ok (d ++ xs)
  | [], d, _ => by simp [exec]
  | x :: xs, d, h => by
    have hd : d.length < maxLen := by simp at h; omega
    have hs := deque_step (.pushBack x) d hd.le trivial
    simp only [DOp.abs] at hs
    rw [if_neg (by omega)] at hs
    rw [List.map_cons, exec, hs.1]
    simp only
    rw [exec_pushes xs (d ++ [x]) (by simp at h ⊢; omega)]
    simp

/-- C92, a queue: `while (!d.is_empty()) { T x = d.pop_front(); … }` where the body pushes the successors of `x` at the back. If `v` begins with the
elements of `d` and goes on with the successors of its own elements, in order, that is what the loop visits (level by level); the deque
is empty in the end. That there is no cycle is what `rank` is for. -/
theorem C92_queue (succ : α → List α) (rank : α → ℕ) (hr : ∀ x, ∀ y ∈ succ x, rank y < rank x) : ∀ (v d : List α), v = d ++ v.flatMap succ →
    v.length ≤ maxLen → Returns (fun k => queueLoop (fun x => (succ x).map .pushBack) k d []) (v, []) := by
  have run : ∀ (n : ℕ) (v d u : List α), v.length = n → v = d ++ v.flatMap succ → v.length ≤ maxLen →
      ∀ k, n < k → queueLoop (fun x => (succ x).map .pushBack) k d u = .ok (u ++ v, []) := by
    intro n
    induction n with
    | zero =>
      intro v d u hn hv hl k hk
      obtain ⟨k, rfl⟩ := Nat.exists_eq_succ_of_ne_zero (by omega : k ≠ 0)
      have hv0 := List.eq_nil_of_length_eq_zero hn
      subst hv0
      have hd : d = [] := (List.append_eq_nil_iff.1 hv.symm).1
      subst hd
      rw [queueLoop, if_pos (show isEmpty ([] : List α) = true from rfl), List.append_nil]
    | succ n ih =>
      intro v d u hn hv hl k hk
      obtain ⟨k, rfl⟩ := Nat.exists_eq_succ_of_ne_zero (by omega : k ≠ 0)
      cases d with
      | nil =>
        exfalso
        have hne : v ≠ [] := fun e => by rw [e] at hn; cases hn
        obtain ⟨m, hm, hmax⟩ : ∃ m ∈ v, ∀ y ∈ v, rank y ≤ rank m := by
          clear hv hn hl
          induction v with
          | nil => exact absurd rfl hne
          | cons a v ih =>
            by_cases h0 : v = []
            · exact ⟨a, by simp, fun y hy => by simp [h0] at hy; rw [hy]⟩
            · obtain ⟨m, hm, h⟩ := ih h0
              by_cases hc : rank a ≤ rank m
              · exact ⟨m, by simp [hm], fun y hy => by
                  rcases List.mem_cons.1 hy with rfl | hy
                  · exact hc
                  · exact h y hy⟩
              · exact ⟨a, by simp, fun y hy => by
                  rcases List.mem_cons.1 hy with rfl | hy
                  · exact le_rfl
                  · exact (h y hy).trans (by omega)⟩
        rw [hv, List.nil_append, List.mem_flatMap] at hm
        obtain ⟨x, hx, hmx⟩ := hm
        have := hr x m hmx
        have := hmax x hx
        omega
      | cons x d =>
        cases v with
        | nil => cases hn
        | cons y v =>
          rw [List.cons_append, List.cons.injEq, List.flatMap_cons] at hv
          obtain ⟨rfl, hv⟩ := hv
          have hlen := congrArg List.length hv
          simp only [List.length_append] at hlen
          simp only [List.length_cons] at hn hl
          have hp := popFront_run (y :: d) (by simp; omega)
          simp only at hp
          rw [queueLoop, if_neg (show ¬ isEmpty (y :: d) = true from Bool.false_ne_true), hp]
          simp only [andThen]
          rw [exec_pushes _ _ (by omega), Res.ok_bind, ih v (d ++ succ y) (u ++ [y]) (by omega) (by rw [List.append_assoc]; exact hv) (by omega) k (by omega)]
          simp
  intro v d hv hl
  exact ⟨v.length + 1, fun k hk => by simpa using run _ v d [] rfl hv hl k (by omega)⟩

/-- C92: there is such a list for every `d`. -/
theorem C92_queue_levels (succ : α → List α) (rank : α → ℕ) (hr : ∀ x, ∀ y ∈ succ x, rank y < rank x) (d : List α) : ∃ v, v = d ++ v.flatMap succ := by
  have levels : ∀ (n : ℕ) (d : List α), (∀ x ∈ d, rank x < n) → ∃ v, v = d ++ v.flatMap succ := by
    intro n
    induction n with
    | zero =>
      intro d hd
      cases d with
      | nil => exact ⟨[], rfl⟩
      | cons x d => exact absurd (hd x List.mem_cons_self) (Nat.not_lt_zero _)
    | succ n ih =>
      intro d hd
      obtain ⟨v, hv⟩ := ih (d.flatMap succ) fun y hy => by
        obtain ⟨x, hx, hxy⟩ := List.mem_flatMap.1 hy
        have := hr x y hxy
        have := hd x hx
        omega
      exact ⟨d ++ v, by rw [List.flatMap_append, ← hv]⟩
  have bound : ∀ d : List α, ∃ n, ∀ x ∈ d, rank x < n := by
    intro d
    induction d with
    | nil => exact ⟨0, fun x h => by cases h⟩
    | cons a d ih =>
      obtain ⟨n, h⟩ := ih
      refine ⟨max n (rank a + 1), fun x hx => ?_⟩
      rcases List.mem_cons.1 hx with rfl | hx
      · omega
      · have := h x hx; omega
  obtain ⟨n, h⟩ := bound d
  exact levels n d h

/-- C92, a stack: `while (!d.is_empty()) { T x = d.pop_back(); … }` where the body pushes the successors of `x` at the back. If `pre x` is `x` followed by
what `pre` gives for its successors, the last one first, the loop visits what `pre` gives for the elements of `d`, the last one first (depth first). -/
theorem C92_stack (succ : α → List α) (pre : α → List α) (hp : ∀ x, pre x = x :: (succ x).reverse.flatMap pre) (d : List α)
    (hl : (d.reverse.flatMap pre).length ≤ maxLen) :
    Returns (fun k => stackLoop (fun x => (succ x).map .pushBack) k d []) (d.reverse.flatMap pre, []) := by
  have count : ∀ l : List α, l.length ≤ (l.flatMap pre).length := by
    intro l
    induction l with
    | nil => simp
    | cons x l ih => rw [List.flatMap_cons, hp x, List.length_append, List.length_cons, List.length_cons]; omega
  have run : ∀ (n : ℕ) (d u : List α), (d.reverse.flatMap pre).length = n → n ≤ maxLen →
      ∀ k, n < k → stackLoop (fun x => (succ x).map .pushBack) k d u = .ok (u ++ d.reverse.flatMap pre, []) := by
    intro n
    induction n with
    | zero =>
      intro d u hn hl k hk
      obtain ⟨k, rfl⟩ := Nat.exists_eq_succ_of_ne_zero (by omega : k ≠ 0)
      have := count d.reverse
      rw [hn, List.length_reverse] at this
      have := List.eq_nil_of_length_eq_zero (Nat.le_zero.1 this)
      subst this
      rw [stackLoop, if_pos (show isEmpty ([] : List α) = true from rfl)]
      exact congrArg (fun l => Res.ok (l, [])) (List.append_nil u).symm
    | succ n ih =>
      intro d u hn hl k hk
      obtain ⟨k, rfl⟩ := Nat.exists_eq_succ_of_ne_zero (by omega : k ≠ 0)
      cases d using List.reverseRecOn with
      | nil => cases hn
      | append_singleton d x _ =>
        have hc := count (d ++ [x]).reverse
        rw [hn, List.length_reverse] at hc
        have e : (d ++ [x]).reverse.flatMap pre = x :: (d ++ succ x).reverse.flatMap pre := by
          rw [List.reverse_append, List.reverse_singleton, List.singleton_append, List.flatMap_cons, hp x, List.cons_append, List.reverse_append,
            List.flatMap_append]
        rw [e, List.length_cons] at hn
        have hc' := count (d ++ succ x).reverse
        rw [List.length_reverse, List.length_append] at hc'
        have hpop := popBack_run (d ++ [x]) (by omega)
        simp only [List.getLast?_append_cons, List.getLast?_singleton, List.dropLast_concat] at hpop
        have hne : ¬ isEmpty (d ++ [x]) = true := by unfold isEmpty; simp
        rw [stackLoop, if_neg hne, hpop]
        simp only [andThen]
        rw [exec_pushes _ _ (by omega), Res.ok_bind, ih (d ++ succ x) (u ++ [x]) (by omega) (by omega) k (by omega), e]
        simp
  exact ⟨(d.reverse.flatMap pre).length + 1, fun k hk => by simpa using run _ d [] rfl hl k (by omega)⟩

/-! ## Examples -/

/-- The deque <1, 2, 3, 4>. -/
def four : Iters ℕ := ⟨⟨[(0, 1), (1, 2), (2, 3), (3, 4)], 4⟩, 0, 0⟩

theorem four_wf : four.c.WF := ⟨by decide, by decide, by decide⟩

example : four.vals ≠ [] ∧ four.vals.length < maxLen ∧ Even four.vals.length ∧ Pushes (DOp.pushFront 5) :=
  ⟨by decide, by decide, by decide, 5, .inr rfl⟩

/-- Popping the first element while at the third: the loop goes on with the fourth. -/
example : (Iters.rangeLoop (fun x => if x = 3 then [DOp.popFront] else []) four.end 9 four.begin four [] >>= fun r => .ok (r.1, r.2.vals)) =
    .ok ([1, 2, 3, 4], [2, 3, 4]) := by decide +kernel

example : Walk (fun x => if x = 3 then [DOp.popFront] else []) (holdAll true) [1, 2, 3, 4] 0 [1, 2, 3, 4] (some [2, 3, 4]) :=
  .visit _ _ 0 1 _ _ rfl trivial rfl (.visit _ _ 1 2 _ _ rfl trivial rfl (.visit _ _ 1 3 _ _ rfl ⟨trivial, trivial⟩ rfl
    (.visit _ _ 2 4 _ _ rfl trivial rfl (.done _ _ (by decide)))))

/-- By index the same body makes the loop miss an element. -/
example : (Iters.indexLoop (fun x => if x = 2 then [DOp.popFront] else []) 9 0 four [] >>= fun r => .ok r.1) = .ok [1, 2, 4] := by decide +kernel

/-- Half of the elements. -/
example : (Iters.iterLoop (fun _ => [DOp.popBack]) 9 four.begin four [] >>= fun r => .ok (r.1, r.2.vals)) = .ok ([1, 2], [1, 2]) := by decide +kernel

example : ∀ x : ℕ, ∀ op ∈ [DOp.reverse, .assign 0 x], InPlace op := by
  intro x op h
  rcases List.mem_cons.1 h with rfl | h
  · trivial
  · rw [List.mem_singleton.1 h]; show IsInt 0; decide

/-- The successors of `n` are `n / 2` and `n - 2`, for `n` from 2 on. -/
def parts (n : ℕ) : List ℕ := if n < 2 then [] else [n / 2, n - 2]

example : (∀ x, ∀ y ∈ parts x, id y < id x) ∧ [5, 2, 3, 1, 0, 1, 1] = [5] ++ [5, 2, 3, 1, 0, 1, 1].flatMap parts ∧
    queueLoop (fun x => (parts x).map .pushBack) 9 [5] [] = .ok ([5, 2, 3, 1, 0, 1, 1], []) := by
  refine ⟨fun x y h => ?_, by decide, by decide +kernel⟩
  unfold parts at h
  split at h
  · cases h
  · simp at h
    show y < x
    omega

/-- Depth first: the successor pushed last comes first. -/
def deep (n : ℕ) : List ℕ := if n < 2 then [n] else n :: (deep (n - 2) ++ deep (n / 2))

example : (∀ x, deep x = x :: (parts x).reverse.flatMap deep) ∧ deep 5 = [5, 3, 1, 1, 2, 0, 1] ∧ ([5].reverse.flatMap deep).length ≤ maxLen := by
  have h5 : deep 5 = [5, 3, 1, 1, 2, 0, 1] := by simp [deep]
  refine ⟨fun x => ?_, h5, by simp [h5, maxLen]⟩
  rw [deep]
  unfold parts
  split <;> simp

example : stackLoop (fun x => (parts x).map .pushBack) 9 [5] [] = .ok ([5, 3, 1, 1, 2, 0, 1], []) := by decide +kernel

end Dq
end Pyincpp
