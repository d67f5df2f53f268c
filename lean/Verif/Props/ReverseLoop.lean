import Verif.Model.ReverseLoop
import Verif.Props.ListLoop
import Verif.Props.DequeLoop
import Verif.Props.LoopEnd

/-! # C94: reverse loops over a `List` or `Deque` that is changed -/

namespace Pyincpp

/-! ## Lists -/

namespace Lst

variable {α : Type} [BEq α] [Inhabited α] {mem : Mem} {grow : ℕ → ℕ → ℕ}

/-- The iterator to the index `i` (which may be the end) is not lost. -/
def KeepsPlace (mem : Mem) (grow : ℕ → ℕ → ℕ) (ops : List (VOp α)) (s : Vec α) (i : ℕ) : Prop :=
  if i < s.l.length then VOp.Stays mem grow i ops s else VOp.AllStill mem grow ops s

/-- What a reverse loop over the list visits when the elements before the index `b` are left: `v` are the elements, the list is then `some t`, or (`none`)
the iterator has been lost. -/
inductive BackWalk (mem : Mem) (grow : ℕ → ℕ → ℕ) (body : α → List (VOp α)) : Vec α → ℕ → List α → Option (Vec α) → Prop
  | done (s : Vec α) : BackWalk mem grow body s 0 [] (some s)
  | visit (s s' : Vec α) (b : ℕ) (x : α) (v : List α) (r : Option (Vec α)) : s.l[b]? = some x → VOp.run mem grow (body x) s = some s' →
      KeepsPlace mem grow (body x) s (b + 1) → BackWalk mem grow body s' b v r → BackWalk mem grow body s (b + 1) (x :: v) r
  | lost (s s' : Vec α) (b : ℕ) (x : α) : s.l[b]? = some x → VOp.run mem grow (body x) s = some s' → ¬ KeepsPlace mem grow (body x) s (b + 1) →
      BackWalk mem grow body s (b + 1) [x] none

/-- The iterator to the index `i`. -/
def Vec.nth (s : Vec α) (i : ℕ) : It :=
  match s.slots[i]? with
  | some c => .node c
  | none => .last s.end

omit [BEq α] [Inhabited α] in
theorem nth_zero (s : Vec α) : s.nth 0 = s.front := by
  unfold Vec.nth Vec.front
  cases s.slots <;> rfl

omit [BEq α] [Inhabited α] in
theorem nth_ne {s : Vec α} (W : s.WF) {b : ℕ} (h : b < s.l.length) : s.nth (b + 1) ≠ s.front := by
  rw [← nth_zero]
  unfold Vec.nth
  rw [← W.len] at h
  rw [List.getElem?_eq_getElem (show 0 < s.slots.length by omega)]
  by_cases hb : b + 1 < s.slots.length
  · rw [List.getElem?_eq_getElem hb]
    intro e
    have e := It.node.inj e
    have := (List.Nodup.getElem_inj_iff W.once).1 e
    omega
  · rw [List.getElem?_eq_none (by omega)]
    exact It.noConfusion

omit [BEq α] [Inhabited α] in
theorem find_slot {s : Vec α} (W : s.WF) {i c : ℕ} (hi : s.slots[i]? = some c) : s.slots.findIdx (· == c) = i ∧ i < s.slots.length := by
  obtain ⟨hlt, hc⟩ := List.getElem?_eq_some_iff.1 hi
  refine ⟨?_, hlt⟩
  rw [List.findIdx_eq hlt]
  refine ⟨by simp [hc], fun j hj => ?_⟩
  have hne : s.slots[j] ≠ s.slots[i] := fun e => by
    have := (List.Nodup.getElem_inj_iff W.once).1 e
    omega
  simpa [hc] using hne

omit [BEq α] [Inhabited α] in
theorem dec_node {s : Vec α} (W : s.WF) {b c d : ℕ} (h : s.slots[b + 1]? = some c) (hd : s.slots[b]? = some d) : s.dec (.node c) = .ok d := by
  obtain ⟨h1, h2⟩ := find_slot W h
  rw [Vec.dec, h1, if_pos h2]
  show vget s.slots b = _
  rw [vget, hd]

omit [BEq α] [Inhabited α] in
theorem dec_last {s : Vec α} {b d : ℕ} (h : b + 1 = s.slots.length) (hd : s.slots[b]? = some d) : s.dec (.last s.end) = .ok d := by
  rw [Vec.dec, if_pos rfl, ← h]
  show vget s.slots b = _
  rw [vget, hd]

/-- What a body does to the iterator. -/
theorem dec_body (hg : ∀ c n, n ≤ grow c n) {s s' : Vec α} (W : s.WF) {ops : List (VOp α)} (hr : VOp.run mem grow ops s = some s') {b : ℕ} (hb : b < s.l.length) :
    (KeepsPlace mem grow ops s (b + 1) → b < s'.l.length ∧ ∃ d, s'.slots[b]? = some d ∧ s'.dec (s.nth (b + 1)) = .ok d) ∧
    (¬ KeepsPlace mem grow ops s (b + 1) → s'.dec (s.nth (b + 1)) = .ub .badDeref) := by
  have W' := run_wf hg _ W hr
  unfold KeepsPlace Vec.nth
  have hlen := W.len
  have hlen' := W'.len
  by_cases hi : b + 1 < s.l.length
  · rw [if_pos hi, List.getElem?_eq_getElem (show b + 1 < s.slots.length by omega)]
    obtain ⟨-, h1, h2⟩ := run_place hg ops W hr (List.getElem?_eq_getElem (show b + 1 < s.slots.length by omega))
    refine ⟨fun h => ?_, fun h => ?_⟩
    · have h3 := h1 h
      have hlt := (List.getElem?_eq_some_iff.1 h3).1
      exact ⟨by omega, _, List.getElem?_eq_getElem (show b < s'.slots.length by omega), dec_node W' h3 (List.getElem?_eq_getElem _)⟩
    · have : s'.slots.findIdx (· == s.slots[b + 1]) = s'.slots.length := by
        rw [List.findIdx_eq_length]
        intro x hx
        have : x ≠ s.slots[b + 1] := fun e => h2 h (e ▸ hx)
        simpa using this
      simp only [Vec.dec]
      rw [this, if_neg (Nat.lt_irrefl _)]
  · rw [if_neg hi, List.getElem?_eq_none (show s.slots.length ≤ b + 1 by omega)]
    have hs := (run_still hg _ W hr).2.2
    refine ⟨fun h => ?_, fun h => ?_⟩
    · have he := hs.1 h
      have hsl : s'.slots = s.slots := congrArg Prod.fst he
      rw [hsl] at hlen'
      refine ⟨by omega, _, List.getElem?_eq_getElem (show b < s'.slots.length by rw [hsl]; omega), ?_⟩
      simp only
      rw [← he]
      exact dec_last (by rw [hsl]; omega) (List.getElem?_eq_getElem _)
    · simp only [Vec.dec]
      rw [if_neg fun he => h (hs.2 he)]

theorem back_walk (hg : ∀ c n, n ≤ grow c n) {body : α → List (VOp α)} {s : Vec α} {b : ℕ} {v : List α} {r : Option (Vec α)}
    (hw : BackWalk mem grow body s b v r) : ∀ (u : List α), s.WF → b ≤ s.l.length →
      match r with
      | some t => ∀ k, v.length < k → Vec.backLoop mem grow body k (s.nth b) s u = .ok (u ++ v, t)
      | none => ∀ k, v.length ≤ k → Vec.backLoop mem grow body k (s.nth b) s u = .ub .badDeref := by
  have read : ∀ {s : Vec α} {b : ℕ} {x : α}, s.WF → s.l[b]? = some x → ∃ c, s.dec (s.nth (b + 1)) = .ok c ∧ s.read c = .ok x := by
    intro s b x W hx
    obtain ⟨c, hc, hread⟩ := slot_at W hx
    have hlt := (List.getElem?_eq_some_iff.1 hx).1
    obtain ⟨-, d, hd, hdec⟩ := (dec_body (mem := mem) hg W (ops := []) rfl hlt).1 (by unfold KeepsPlace; split <;> trivial)
    rw [hc] at hd
    cases hd
    exact ⟨c, hdec, hread⟩
  induction hw with
  | done s =>
    intro u W _ k hk
    obtain ⟨k, rfl⟩ := Nat.exists_eq_succ_of_ne_zero (by simp at hk; omega : k ≠ 0)
    rw [Vec.backLoop, if_pos (nth_zero s), List.append_nil]
  | lost s s' b x hx hr hgo =>
    intro u W hb k hk
    obtain ⟨k, rfl⟩ := Nat.exists_eq_succ_of_ne_zero (by simp at hk; omega : k ≠ 0)
    obtain ⟨c, h1, h2⟩ := read W hx
    rw [Vec.backLoop, if_neg (nth_ne W hb), h1, Res.ok_bind, h2, Res.ok_bind, exec_some hr, Res.ok_bind, (dec_body hg W hr hb).2 hgo]
    rfl
  | visit s s' b x v r hx hr hgo _ ih =>
    intro u W hb
    obtain ⟨c, h1, h2⟩ := read W hx
    obtain ⟨hb', d, hd, hdec⟩ := (dec_body hg W hr hb).1 hgo
    have hn : It.node d = s'.nth b := by rw [Vec.nth, hd]
    have step : ∀ k, Vec.backLoop mem grow body (k + 1) (s.nth (b + 1)) s u = Vec.backLoop mem grow body k (s'.nth b) s' (u ++ [x]) := fun k => by
      rw [Vec.backLoop, if_neg (nth_ne W hb), h1, Res.ok_bind, h2, Res.ok_bind, exec_some hr, Res.ok_bind, hdec, Res.ok_bind, hn]
    have I := ih (u ++ [x]) (run_wf hg _ W hr) hb'.le
    cases r with
    | some t =>
      intro k hk
      obtain ⟨k, rfl⟩ := Nat.exists_eq_succ_of_ne_zero (by simp at hk; omega : k ≠ 0)
      rw [step, I k (by simp at hk; omega)]
      simp
    | none =>
      intro k hk
      obtain ⟨k, rfl⟩ := Nat.exists_eq_succ_of_ne_zero (by simp at hk; omega : k ≠ 0)
      rw [step, I k (by simp at hk; omega)]

/-- C94, lists: a reverse loop visits the elements at the indices n - 1, n - 2, …, 0 of the list as it then is. It is undefined exactly if a body loses
the iterator to the element visited before, or in the first round the end (C85 says when places are lost). -/
theorem C94_list_partial (mem : Mem) (hg : ∀ c n, n ≤ grow c n) (body : α → List (VOp α)) (s : Vec α) (W : s.WF) (v : List α) :
    (∀ t, BackWalk mem grow body s s.l.length v (some t) → Returns (fun k => Vec.backLoop mem grow body k (.last s.end) s []) (v, t)) ∧
    (BackWalk mem grow body s s.l.length v none → HitsUB (fun k => Vec.backLoop mem grow body k (.last s.end) s []) .badDeref) := by
  have hn : s.nth s.l.length = .last s.end := by rw [Vec.nth, List.getElem?_eq_none (by rw [W.len])]
  refine ⟨fun t h => ⟨v.length + 1, fun k hk => ?_⟩, fun h => ⟨v.length + 1, fun k hk => ?_⟩⟩
  · have := back_walk hg h [] W le_rfl k (by omega)
    rwa [hn] at this
  · have := back_walk hg h [] W le_rfl k (by omega)
    rwa [hn] at this

/-- C94: a body that adds or loses a place while the loop is at the last element makes the loop undefined. -/
theorem C94_list_last_not (mem : Mem) (hg : ∀ c n, n ≤ grow c n) (body : α → List (VOp α)) (s s' : Vec α) (W : s.WF) (x : α)
    (hx : s.l.getLast? = some x) (hr : VOp.run mem grow (body x) s = some s') (hn : ¬ VOp.AllStill mem grow (body x) s) :
    HitsUB (fun k => Vec.backLoop mem grow body k (.last s.end) s []) .badDeref := by
  have h0 : s.l ≠ [] := fun e => by rw [e] at hx; cases hx
  obtain ⟨n, hlen⟩ := Nat.exists_eq_succ_of_ne_zero (fun e => h0 (List.length_eq_zero_iff.1 e))
  rw [List.getLast?_eq_getElem?, hlen, Nat.succ_sub_one] at hx
  refine (C94_list_partial mem hg body s W [x]).2 ?_
  rw [hlen]
  exact .lost s s' n x hx hr fun h => hn (by rwa [KeepsPlace, if_neg (by omega)] at h)

/-- C94: so does appending an element, to any list that is not empty. -/
theorem C94_list_append_not {α : Type} [DecidableEq α] [Inhabited α] (hg : ∀ c n, n ≤ grow c n) (s : Vec α) (W : s.WF) (hs : s.l ≠ []) (hl : s.l.length < maxLen) (e : α) :
    HitsUB (fun k => Vec.backLoop .lenient grow (fun _ => [.op (.append e)]) k (.last s.end) s []) .badDeref := by
  have hon := append_on (s := s) hl e
  refine C94_list_last_not .lenient hg _ s _ W _ (List.getLast?_eq_some_getLast hs) (run_one hon) fun h => ?_
  have := (h.1 _ hon).1
  simp at this

/-- C94: reverse loops whose bodies only assign or exchange visit every index, from the last to the first. -/
theorem C94_list_in_place {α : Type} [DecidableEq α] [Inhabited α] (hg : ∀ c n, n ≤ grow c n) (body : α → List (VOp α)) (s : Vec α) (W : s.WF)
    (hl : s.l.length ≤ maxLen) (hb : ∀ x, ∀ o ∈ body x, ∀ l, InPlace l o) :
    ∃ v t, v.length = s.l.length ∧ t.l.length = s.l.length ∧ BackWalk .lenient grow body s s.l.length v (some t) ∧
      Returns (fun k => Vec.backLoop .lenient grow body k (.last s.end) s []) (v, t) := by
  have walk : ∀ (b : ℕ) (s : Vec α), s.WF → s.l.length ≤ maxLen → b ≤ s.l.length → ∃ v t, v.length = b ∧ t.l.length = s.l.length ∧
      BackWalk .lenient grow body s b v (some t) := by
    intro b
    induction b with
    | zero => intro s W hl hn; exact ⟨[], s, rfl, rfl, .done s⟩
    | succ b ih =>
      intro s W hl hn
      have hlt : b < s.l.length := hn
      obtain ⟨s', r, W', l', st⟩ := inPlace_run (grow := grow) (body s.l[b]) W hl (hb _)
      obtain ⟨v, t, h1, h2, h3⟩ := ih s' W' (by omega) (by omega)
      refine ⟨s.l[b] :: v, t, by simp [h1], by omega, .visit _ _ _ _ _ _ (List.getElem?_eq_getElem hlt) r ?_ h3⟩
      unfold KeepsPlace
      split
      · rename_i hi; exact stays_of_still _ hi W hg ⟨s', r⟩ st
      · exact st
  obtain ⟨v, t, h1, h2, h3⟩ := walk _ s W hl le_rfl
  exact ⟨v, t, h1, h2, h3, (C94_list_partial .lenient hg body s W v).1 t h3⟩

/-- C94: a reverse loop over a list comes to an end, after at most as many rounds as there were elements. -/
theorem C94_list_ends_partial (mem : Mem) (hg : ∀ c n, n ≤ grow c n) (body : α → List (VOp α)) (P : Vec α → Prop)
    (hP : ∀ s x, P s → x ∈ s.l → ∃ s', VOp.run mem grow (body x) s = some s' ∧ P s') (s : Vec α) (W : s.WF) (h : P s) :
    (∃ v t, v.length = s.l.length ∧ Returns (fun k => Vec.backLoop mem grow body k (.last s.end) s []) (v, t)) ∨
      HitsUB (fun k => Vec.backLoop mem grow body k (.last s.end) s []) .badDeref := by
  have walk : ∀ (b : ℕ) (s : Vec α), s.WF → P s → b ≤ s.l.length → ∃ v r, (r ≠ none → v.length = b) ∧ BackWalk mem grow body s b v r := by
    intro b
    induction b with
    | zero => intro s W hs hb; exact ⟨[], _, fun _ => rfl, .done s⟩
    | succ b ih =>
      intro s W hs hb
      obtain ⟨s', hr, hs'⟩ := hP s _ hs (List.getElem_mem hb)
      by_cases hk : KeepsPlace mem grow (body (s.l[b]'hb)) s (b + 1)
      · obtain ⟨v, r, h1, h2⟩ := ih s' (run_wf hg _ W hr) hs' ((dec_body hg W hr hb).1 hk).1.le
        exact ⟨_ :: v, r, fun hn => by simp [h1 hn], .visit s s' b _ v r (List.getElem?_eq_getElem hb) hr hk h2⟩
      · exact ⟨_, _, fun hn => absurd rfl hn, .lost s s' b _ (List.getElem?_eq_getElem hb) hr hk⟩
  obtain ⟨v, r, h1, h2⟩ := walk _ s W h le_rfl
  cases r with
  | none => exact .inr ((C94_list_partial mem hg body s W v).2 h2)
  | some t => exact .inl ⟨v, t, h1 (by simp), (C94_list_partial mem hg body s W v).1 t h2⟩

/-- Removing the element behind the one visited is defined as long as the iterator refers to an element before it. -/
example : (Prod.fst <$> Vec.backLoop .lenient (fun _ n => n) (fun x => if x = 1 then [.op (.remove 2)] else []) 9 (.last three.end) three []) = .ok [3, 2, 1] ∧
    (Prod.fst <$> Vec.backLoop .lenient (fun _ n => n) (fun x => if x = 2 then [.op (.remove 1)] else []) 9 (.last three.end) three []) = .ub .badDeref := by
  decide +kernel
example : three.WF ∧ three.l ≠ [] ∧ three.l.length < maxLen ∧ three.l.getLast? = some 3 := ⟨three_wf, by decide, by decide, rfl⟩

end Lst

/-! ## Deques -/

namespace Dq

variable {α : Type}

/-- Where an iterator to the index `b` (which may be the end) is after the operation; `none`: it is lost. -/
def keep (d : List α) (b : ℕ) (op : DOp α) : Option ℕ :=
  if b < d.length then hold false d b op else if Inserts d op || ErasesLast d op then none else some (after d op).length

/-- The same over a history. -/
def keepAll : List (DOp α) → List α → ℕ → Option ℕ
  | [], _, b => some b
  | op :: ops, d, b => (keep d b op).bind (fun j => keepAll ops (after d op) j)

/-- What a reverse loop over the deque visits when the elements before the index `b` are left: `v` are the elements, and then the deque, or what makes the
loop undefined: the iterator has been lost, or (`badRange`) there is nothing before it any more. -/
inductive BackWalk (body : α → List (DOp α)) : List α → ℕ → List α → Except UB (List α) → Prop
  | done (d : List α) : BackWalk body d 0 [] (.ok d)
  | lost (d : List α) (b : ℕ) (x : α) : d[b]? = some x → DOp.FairRun d (body x) → keepAll (body x) d (b + 1) = none →
      BackWalk body d (b + 1) [x] (.error .badDeref)
  | front (d : List α) (b : ℕ) (x : α) : d[b]? = some x → DOp.FairRun d (body x) → keepAll (body x) d (b + 1) = some 0 →
      BackWalk body d (b + 1) [x] (.error .badRange)
  | visit (d : List α) (b j : ℕ) (x : α) (v : List α) (r : Except UB (List α)) : d[b]? = some x → DOp.FairRun d (body x) →
      keepAll (body x) d (b + 1) = some (j + 1) → BackWalk body (DOp.absRun d (body x)).2 j v r → BackWalk body d (b + 1) (x :: v) r

theorem keepAll_inner : ∀ (ops : List (DOp α)) {d : List α} {b : ℕ}, b < d.length → keepAll ops d b = holdAll false ops d b
  | [], _, _, _ => rfl
  | op :: ops, d, b, h => by
    rw [keepAll, holdAll, keep, if_pos h]
    cases hk : hold false d b op with
    | none => rfl
    | some j => exact keepAll_inner ops (hold_rest hk h).1

/-- A body, and the end. -/
theorem exec_end : ∀ (ops : List (DOp α)) (s : Iters α) (_ : s.c.WF) (_ : DOp.FairRun s.vals ops) {s' : Iters α} (_ : Iters.exec ops s = .ok s'),
    match keepAll ops s.vals s.vals.length with
    | some j => j = s'.vals.length ∧ s'.end = s.end
    | none => s'.end ≠ s.end
  | [], s, W, _, s', hr => by cases hr; exact ⟨rfl, rfl⟩
  | op :: ops, s, W, hf, s', hr => by
    obtain ⟨h1, h2⟩ := fair_rest hf
    obtain ⟨a, S, b, t⟩ := iters_step s W op h1
    have hv : (s.step op).2.vals = after s.vals op := S.vals
    rw [← hv] at h2
    rw [exec_cons a] at hr
    have hb : s.age ≤ (s.step op).2.age := by rw [b]; split <;> omega
    have ht : s.tail ≤ (s.step op).2.tail := by rw [t]; split <;> omega
    obtain ⟨s'', e1, -, -, e3, e4, -⟩ := exec_ok ops _ S.wf h2
    rw [hr] at e1
    cases e1
    rw [keepAll, keep, if_neg (Nat.lt_irrefl _)]
    by_cases hh : (Inserts s.vals op || ErasesLast s.vals op) = true
    · rw [if_pos hh]
      intro he
      unfold Iters.end at he
      obtain ⟨q1, q2⟩ := It.last.inj he
      rcases Bool.or_eq_true_iff.1 hh with h | h
      · rw [if_pos h] at b; omega
      · rw [if_pos h] at t; omega
    · rw [if_neg hh, ← hv]
      rw [Bool.or_eq_true, not_or] at hh
      rw [if_neg hh.1] at b
      rw [if_neg hh.2] at t
      have I := exec_end ops _ S.wf h2 hr
      have he : (s.step op).2.end = s.end := by unfold Iters.end; rw [b, t]
      rw [he] at I
      exact I

theorem find_place {s : Iters α} (W : s.c.WF) {i c : ℕ} {x : α} (hi : s.c.d[i]? = some (c, x)) :
    s.c.d.findIdx (·.1 == c) = i ∧ i < s.c.d.length := by
  obtain ⟨hlt, hc⟩ := List.getElem?_eq_some_iff.1 hi
  refine ⟨?_, hlt⟩
  rw [List.findIdx_eq hlt]
  refine ⟨by simp [hc], fun j hj => ?_⟩
  have hne : s.c.d[j].1 ≠ s.c.d[i].1 := fun e => by
    have := (List.Nodup.getElem_inj_iff W.once (i := j) (j := i) (hi := by simpa using by omega) (hj := by simpa using hlt)).1 (by simpa using e)
    omega
  simpa [hc] using hne

theorem before_nth (s : Iters α) {b : ℕ} (h : b < s.vals.length) : s.before (b + 1) = .ok (s.nth b) := by
  rw [Iters.vals, vals_length] at h
  show (vget s.c.d b >>= _) = _
  rw [vget, List.getElem?_eq_getElem h]
  rw [nth_place s (c := s.c.d[b].1) (x := s.c.d[b].2) (List.getElem?_eq_getElem h)]
  rfl

/-- `--` of the iterator to an index. -/
theorem dec_nth {s : Iters α} (W : s.c.WF) {b : ℕ} (h : b ≤ s.vals.length) : s.dec (s.nth b) = s.before b := by
  have hl : s.vals.length = s.c.d.length := by rw [Iters.vals, vals_length]
  by_cases hb : b < s.c.d.length
  · have hp : s.c.d[b]? = some (s.c.d[b].1, s.c.d[b].2) := List.getElem?_eq_getElem hb
    obtain ⟨h1, h2⟩ := find_place W hp
    rw [nth_place s hp, Iters.dec, h1, if_pos ⟨rfl, h2⟩]
  · have hb : b = s.c.d.length := by omega
    rw [nth_end s (by omega)]
    show (if s.end = s.end then _ else _) = _
    rw [if_pos rfl, hb]

/-- What a body does to the iterator. -/
theorem dec_body {s s' : Iters α} (W : s.c.WF) {ops : List (DOp α)} (hf : DOp.FairRun s.vals ops) (hr : Iters.exec ops s = .ok s') {b : ℕ} (hb : b ≤ s.vals.length) :
    match keepAll ops s.vals b with
    | some j => j ≤ s'.vals.length ∧ s.nth b = s'.nth j
    | none => s'.dec (s.nth b) = .ub .badDeref := by
  have hl : s.vals.length = s.c.d.length := by rw [Iters.vals, vals_length]
  have hl' : s'.vals.length = s'.c.d.length := by rw [Iters.vals, vals_length]
  by_cases hi : b < s.c.d.length
  · have hp : s.c.d[b]? = some (s.c.d[b].1, s.c.d[b].2) := List.getElem?_eq_getElem hi
    have H := exec_hold false ops s W hf hp hr
    rw [keepAll_inner ops (by omega)]
    cases hk : holdAll false ops s.vals b with
    | some j =>
      rw [hk] at H
      obtain ⟨hm, y, hy⟩ := H
      have hj := (List.getElem?_eq_some_iff.1 hy).1
      have ha : s'.age = s.age := congrArg Prod.fst hm
      exact ⟨by omega, by rw [nth_place s hp, nth_place s' hy, ha]⟩
    | none =>
      rw [hk] at H
      simp only
      rw [nth_place s hp, Iters.dec, if_neg]
      rintro ⟨ha, hlt⟩
      rcases H with H | H
      · exact H (by simp [Iters.mark, ha])
      · have := List.findIdx_getElem (w := hlt)
        refine H (List.mem_map.2 ⟨_, List.getElem_mem hlt, by simpa using this⟩)
  · have hb' : b = s.vals.length := by omega
    subst hb'
    have H := exec_end ops s W hf hr
    cases hk : keepAll ops s.vals s.vals.length with
    | some j =>
      rw [hk] at H
      exact ⟨H.1.le, by rw [nth_end s le_rfl, nth_end s' H.1.ge, H.2]⟩
    | none =>
      rw [hk] at H
      simp only
      rw [nth_end s le_rfl]
      show (if s'.end = s.end then _ else _) = _
      rw [if_neg H]

theorem nth_ne {s : Iters α} (W : s.c.WF) {b : ℕ} (h : b < s.vals.length) : s.nth (b + 1) ≠ s.begin := by
  have hl : s.vals.length = s.c.d.length := by rw [Iters.vals, vals_length]
  intro e
  have h1 := dec_nth W (b := b + 1) h
  have h2 := dec_nth W (b := 0) (Nat.zero_le _)
  have h3 : s.nth 0 = s.begin := rfl
  rw [e, ← h3, h2, before_nth s h] at h1
  cases h1

theorem back_walk {body : α → List (DOp α)} {d : List α} {b : ℕ} {v : List α} {r : Except UB (List α)} (hw : BackWalk body d b v r) :
    ∀ (s : Iters α) (u : List α), s.c.WF → s.vals = d → b ≤ d.length →
      match r with
      | .ok t => ∃ s', s'.vals = t ∧ ∀ k, v.length < k → Iters.backLoop body k (s.nth b) s u = .ok (u ++ v, s')
      | .error e => ∀ k, v.length < k → Iters.backLoop body k (s.nth b) s u = .ub e := by
  have read : ∀ {s : Iters α} {b : ℕ} {x : α}, s.c.WF → s.vals[b]? = some x → s.dec (s.nth (b + 1)) = .ok (s.nth b) ∧ s.deref (s.nth b) = .ok x := by
    intro s b x W hx
    have hlt := (List.getElem?_eq_some_iff.1 hx).1
    obtain ⟨c, hc⟩ := place_of hx
    refine ⟨by rw [dec_nth W hlt, before_nth s hlt], ?_⟩
    rw [nth_place s hc, Iters.deref, if_pos rfl, read_place W hc]
  induction hw with
  | done d =>
    intro s u W hs _
    refine ⟨s, hs, fun k hk => ?_⟩
    obtain ⟨k, rfl⟩ := Nat.exists_eq_succ_of_ne_zero (by simp at hk; omega : k ≠ 0)
    rw [Iters.backLoop, if_pos (show s.nth 0 = s.begin from rfl), List.append_nil]
  | lost d b x hx hf hn =>
    intro s u W hs hb k hk
    subst hs
    obtain ⟨k, rfl⟩ := Nat.exists_eq_succ_of_ne_zero (by simp at hk; omega : k ≠ 0)
    obtain ⟨r1, r2⟩ := read W hx
    obtain ⟨s', e1, -⟩ := exec_ok _ s W hf
    have H := dec_body W hf e1 hb
    rw [hn] at H
    rw [Iters.backLoop, if_neg (nth_ne W hb), r1, Res.ok_bind, r2, Res.ok_bind, e1, Res.ok_bind, H]
    rfl
  | front d b x hx hf hn =>
    intro s u W hs hb k hk
    subst hs
    obtain ⟨k, rfl⟩ := Nat.exists_eq_succ_of_ne_zero (by simp at hk; omega : k ≠ 0)
    obtain ⟨r1, r2⟩ := read W hx
    obtain ⟨s', e1, W', -⟩ := exec_ok _ s W hf
    have H := dec_body W hf e1 hb
    rw [hn] at H
    rw [Iters.backLoop, if_neg (nth_ne W hb), r1, Res.ok_bind, r2, Res.ok_bind, e1, Res.ok_bind, H.2, dec_nth W' (Nat.zero_le _)]
    rfl
  | visit d b j x v r hx hf hn _ ih =>
    intro s u W hs hb
    subst hs
    obtain ⟨r1, r2⟩ := read W hx
    obtain ⟨s', e1, W', e2, -⟩ := exec_ok _ s W hf
    have H := dec_body W hf e1 hb
    rw [hn] at H
    have step : ∀ k, Iters.backLoop body (k + 1) (s.nth (b + 1)) s u = Iters.backLoop body k (s'.nth j) s' (u ++ [x]) := fun k => by
      rw [Iters.backLoop, if_neg (nth_ne W hb), r1, Res.ok_bind, r2, Res.ok_bind, e1, Res.ok_bind, H.2, dec_nth W' H.1, before_nth s' H.1, Res.ok_bind]
    have I := ih s' (u ++ [x]) W' e2 (by rw [← e2]; exact (Nat.le_succ j).trans H.1)
    cases r with
    | ok t =>
      obtain ⟨t', h1, h2⟩ := I
      refine ⟨t', h1, fun k hk => ?_⟩
      obtain ⟨k, rfl⟩ := Nat.exists_eq_succ_of_ne_zero (by simp at hk; omega : k ≠ 0)
      rw [step, h2 k (by simp at hk; omega)]
      simp
    | error e =>
      intro k hk
      obtain ⟨k, rfl⟩ := Nat.exists_eq_succ_of_ne_zero (by simp at hk; omega : k ≠ 0)
      rw [step, I k (by simp at hk; omega)]

/-- C94, deques: each round of a reverse loop visits the element before the one visited last, wherever that is now (before the end in the first round). It is
undefined exactly if a body inserts, or erases the element visited before (in the first round: the last element), or if there is nothing
before that any more after a round. -/
theorem C94_deque_partial (body : α → List (DOp α)) (s : Iters α) (W : s.c.WF) (v : List α) :
    (∀ t, BackWalk body s.vals s.vals.length v (.ok t) → ∃ s', s'.vals = t ∧ Returns (fun k => Iters.backLoop body k s.end s []) (v, s')) ∧
    (∀ e, BackWalk body s.vals s.vals.length v (.error e) → HitsUB (fun k => Iters.backLoop body k s.end s []) e) := by
  have hn := nth_end s (i := s.vals.length) le_rfl
  refine ⟨fun t h => ?_, fun e h => ⟨v.length + 1, fun k hk => ?_⟩⟩
  · obtain ⟨s', h1, h2⟩ := back_walk h s [] W rfl le_rfl
    rw [hn] at h2
    exact ⟨s', h1, v.length + 1, fun k hk => by simpa using h2 k (by omega)⟩
  · have := back_walk h s [] W rfl le_rfl k (by omega)
    rwa [hn] at this

/-- C94: a reverse loop whose body inserts, at either end, or pops the last element is undefined on every deque that is not empty. -/
theorem C94_deque_not (s : Iters α) (W : s.c.WF) (hs : s.vals ≠ []) (op : DOp α) (hp : (s.vals.length < maxLen ∧ Pushes op) ∨ op = .popBack) :
    HitsUB (fun k => Iters.backLoop (fun _ => [op]) k s.end s []) .badDeref := by
  obtain ⟨n, hlen⟩ := Nat.exists_eq_succ_of_ne_zero (fun e => hs (List.length_eq_zero_iff.1 e))
  have hlt : n < s.vals.length := by omega
  refine (C94_deque_partial _ s W [s.vals[n]]).2 _ ?_
  rw [hlen]
  have hf : DOp.FairRun s.vals [op] := by
    rcases hp with ⟨-, e, rfl | rfl⟩ | rfl <;> refine ⟨trivial, ?_⟩ <;> split <;> trivial
  refine .lost _ n _ (List.getElem?_eq_getElem hlt) hf ?_
  have hi : (Inserts s.vals op || ErasesLast s.vals op) = true := by
    rcases hp with ⟨hl, e, rfl | rfl⟩ | rfl
    · simp [Inserts]; omega
    · simp [Inserts]; omega
    · simp [Inserts, ErasesLast, hs]
  rw [keepAll, keep, if_neg (by omega), if_pos hi]
  rfl

theorem popFront_after (d : List α) : after d .popFront = d.tail := by
  cases d <;> simp [after, DOp.abs]

theorem popFront_fair (d : List α) : DOp.FairRun d [.popFront] := ⟨trivial, by split <;> trivial⟩

theorem popFront_walk : ∀ (b : ℕ) (d : List α), b ≤ d.length →
    (Even b → BackWalk (fun _ => [.popFront]) d b ((d.take b).drop (b / 2)).reverse (.ok (d.drop (b / 2)))) ∧
    (¬ Even b → ∃ v e, BackWalk (fun _ => [.popFront]) d b v (.error e))
  | 0, d, _ => ⟨fun _ => by simpa using BackWalk.done d, fun h => absurd (by simp) h⟩
  | 1, d, hb => ⟨fun h => absurd h (by simp), fun _ => by
      have hlt : 0 < d.length := hb
      by_cases h1 : d.length = 1
      · refine ⟨_, _, .lost d 0 _ (List.getElem?_eq_getElem hlt) (popFront_fair d) ?_⟩
        rw [keepAll, keep, if_neg (by omega), if_pos (by simp [Inserts, ErasesLast, h1])]
        rfl
      · refine ⟨_, _, .front d 0 _ (List.getElem?_eq_getElem hlt) (popFront_fair d) ?_⟩
        rw [keepAll, keep, if_pos (by omega)]
        rfl⟩
  | b + 2, d, hb => by
    have hlt : b + 1 < d.length := hb
    have hk : keepAll [.popFront] d (b + 2) = some (b + 1) := by
      rw [keepAll, keep]
      split
      · rfl
      · rw [if_neg (by simp [Inserts, ErasesLast]; omega), popFront_after]
        simp [keepAll]
        omega
    have ha : (DOp.absRun d [.popFront]).2 = d.tail := by rw [absRun_cons, popFront_after]; rfl
    obtain ⟨h1, h2⟩ := popFront_walk b d.tail (by simp; omega)
    rw [show Even (b + 2) ↔ Even b by rw [Nat.even_add]; simp]
    refine ⟨fun he => ?_, fun he => ?_⟩
    · have w := h1 he
      rw [← ha] at w
      have V := BackWalk.visit d (b + 1) b d[b + 1] _ _ (List.getElem?_eq_getElem hlt) (popFront_fair d) hk w
      rw [ha] at V
      have e1 : d.tail.drop (b / 2) = d.drop ((b + 2) / 2) := by
        rw [← List.drop_one, List.drop_drop]
        congr 1
        omega
      have e2 : d[b + 1] :: ((d.tail.take b).drop (b / 2)).reverse = ((d.take (b + 2)).drop ((b + 2) / 2)).reverse := by
        rw [show (b + 2) / 2 = b / 2 + 1 by omega, List.take_succ_eq_append_getElem hlt, List.drop_append_of_le_length (by simp; omega), List.reverse_append]
        rw [← List.drop_one, List.take_drop, List.drop_drop, Nat.add_comm 1 b, Nat.add_comm 1 (b / 2)]
        rfl
      rw [e1, e2] at V
      exact V
    · obtain ⟨v, e, hv⟩ := h2 he
      rw [← ha] at hv
      exact ⟨_, e, .visit d (b + 1) b _ v _ (List.getElem?_eq_getElem hlt) (popFront_fair d) hk hv⟩

/-- C94: a reverse loop whose body pops the first element visits the second half, from behind, and leaves it, if the number of elements is even; if it
is odd, the loop is undefined. -/
theorem C94_deque_pop_front_not (s : Iters α) (W : s.c.WF) :
    (Even s.vals.length → ∃ s', s'.vals = s.vals.drop (s.vals.length / 2) ∧
      Returns (fun k => Iters.backLoop (fun _ => [.popFront]) k s.end s []) ((s.vals.drop (s.vals.length / 2)).reverse, s')) ∧
    (¬ Even s.vals.length → ∃ e, HitsUB (fun k => Iters.backLoop (fun _ => [.popFront]) k s.end s []) e) := by
  obtain ⟨h1, h2⟩ := popFront_walk s.vals.length s.vals le_rfl
  rw [List.take_length] at h1
  refine ⟨fun he => (C94_deque_partial _ s W _).1 _ (h1 he), fun he => ?_⟩
  obtain ⟨v, e, hv⟩ := h2 he
  exact ⟨e, (C94_deque_partial _ s W v).2 e hv⟩

theorem inPlace_keep : ∀ (ops : List (DOp α)), (∀ op ∈ ops, InPlace op) → ∀ (d : List α) (b : ℕ), b ≤ d.length → keepAll ops d b = some b
  | [], _, _, _, _ => rfl
  | op :: ops, h, d, b, hb => by
    have hop := h op List.mem_cons_self
    have hlen := (inPlace_one hop d b).2.2
    have hk : keep d b op = some b := by
      rw [keep]
      split
      · cases op <;> first | exact hop.elim | rfl
      · have hi : (Inserts d op || ErasesLast d op) = false := by cases op <;> first | exact hop.elim | rfl
        rw [if_neg (by rw [hi]; exact Bool.false_ne_true), hlen]
        congr 1
        omega
    rw [keepAll, hk]
    exact inPlace_keep ops (fun o ho => h o (List.mem_cons_of_mem _ ho)) (after d op) b (by omega)

/-- C94: reverse loops whose bodies neither insert nor erase visit every index, from the last to the first. -/
theorem C94_deque_in_place (body : α → List (DOp α)) (hb : ∀ x, ∀ op ∈ body x, InPlace op) (s : Iters α) (W : s.c.WF) :
    ∃ v t s', v.length = s.vals.length ∧ s'.vals = t ∧ BackWalk body s.vals s.vals.length v (.ok t) ∧
      Returns (fun k => Iters.backLoop body k s.end s []) (v, s') := by
  have walk : ∀ (b : ℕ) (d : List α), b ≤ d.length → ∃ v t, v.length = b ∧ BackWalk body d b v (.ok t) := by
    intro b
    induction b with
    | zero => intro d _; exact ⟨[], d, rfl, .done d⟩
    | succ b ih =>
      intro d hd
      obtain ⟨hf, -, hl⟩ := inPlace_all (body (d[b]'hd)) (hb _) d 0
      obtain ⟨v, t, h1, h2⟩ := ih (DOp.absRun d (body (d[b]'hd))).2 (by omega)
      exact ⟨_ :: v, t, by simp [h1], .visit d b b _ v _ (List.getElem?_eq_getElem hd) hf (inPlace_keep _ (hb _) d (b + 1) hd) h2⟩
  obtain ⟨v, t, h1, h2⟩ := walk _ s.vals le_rfl
  obtain ⟨s', h3, h4⟩ := (C94_deque_partial body s W v).1 t h2
  exact ⟨v, t, s', h1, h3, h2, h4⟩

theorem keep_le {d : List α} {b j : ℕ} {op : DOp α} (hb : b ≤ d.length) (h : keep d b op = some j) : j ≤ b ∧ j ≤ (after d op).length := by
  have hi := after_length d op
  unfold keep at h
  split at h
  · rename_i hlt
    refine ⟨?_, (hold_rest h hlt).1.le⟩
    unfold hold at h
    split at h
    · cases h
    · rename_i hn
      rw [Bool.false_and, Bool.or_false] at hn
      cases op with
      | pushFront e =>
        have : d.length = maxLen := by simpa [Inserts] using hn
        rw [follow, if_pos this] at h
        cases h
        exact le_rfl
      | extendFront m =>
        have : m = [] := by simpa [Inserts] using hn
        subst this
        cases h
        exact le_rfl
      | popFront =>
        rw [follow] at h
        split at h <;> cases h
        omega
      | popBack =>
        rw [follow] at h
        split at h <;> cases h
        exact le_rfl
      | clear => cases h
      | _ => cases h; exact le_rfl
  · split at h
    · cases h
    · rename_i hn
      cases h
      rw [Bool.or_eq_true, not_or] at hn
      have := mt hi.2 hn.1
      exact ⟨by omega, le_rfl⟩

theorem keepAll_le : ∀ (ops : List (DOp α)) {d : List α} {b j : ℕ}, b ≤ d.length → keepAll ops d b = some j → j ≤ b ∧ j ≤ (DOp.absRun d ops).2.length
  | [], _, _, _, hb, h => by cases h; exact ⟨le_rfl, hb⟩
  | op :: ops, d, b, j, hb, h => by
    obtain ⟨i, h1, h2⟩ := Option.bind_eq_some_iff.1 h
    obtain ⟨h3, h4⟩ := keep_le hb h1
    obtain ⟨h5, h6⟩ := keepAll_le ops h4 h2
    exact ⟨h5.trans h3, by rw [absRun_cons]; exact h6⟩

/-- C94: a reverse loop over a deque comes to an end, after at most as many rounds as there were elements. -/
theorem C94_deque_ends_partial (body : α → List (DOp α)) (P : List α → Prop)
    (hP : ∀ d x, P d → x ∈ d → DOp.FairRun d (body x) ∧ P (DOp.absRun d (body x)).2) (s : Iters α) (W : s.c.WF) (h : P s.vals) :
    (∃ v s', v.length ≤ s.vals.length ∧ Returns (fun k => Iters.backLoop body k s.end s []) (v, s')) ∨
      ∃ e, HitsUB (fun k => Iters.backLoop body k s.end s []) e := by
  have walk : ∀ (n b : ℕ) (d : List α), b ≤ n → P d → b ≤ d.length → ∃ v r, v.length ≤ b ∧ BackWalk body d b v r := by
    intro n
    induction n with
    | zero =>
      intro b d hn hd hb
      obtain rfl : b = 0 := by omega
      exact ⟨[], _, le_rfl, .done d⟩
    | succ n ih =>
      intro b d hn hd hb
      cases b with
      | zero => exact ⟨[], _, le_rfl, .done d⟩
      | succ b =>
        obtain ⟨hf, hd'⟩ := hP d _ hd (List.getElem_mem hb)
        cases hk : keepAll (body (d[b]'hb)) d (b + 1) with
        | none => exact ⟨_, _, by simp, .lost d b _ (List.getElem?_eq_getElem hb) hf hk⟩
        | some j =>
          cases j with
          | zero => exact ⟨_, _, by simp, .front d b _ (List.getElem?_eq_getElem hb) hf hk⟩
          | succ j =>
            obtain ⟨hj, hl⟩ := keepAll_le _ hb hk
            obtain ⟨v, r, h1, h2⟩ := ih j _ (by omega) hd' (by omega)
            exact ⟨_ :: v, r, by simp; omega, .visit d b j _ v r (List.getElem?_eq_getElem hb) hf hk h2⟩
  obtain ⟨v, r, hl, hv⟩ := walk _ _ s.vals le_rfl h le_rfl
  cases r with
  | error e => exact .inr ⟨e, (C94_deque_partial body s W v).2 e hv⟩
  | ok t =>
    obtain ⟨s', -, hr⟩ := (C94_deque_partial body s W v).1 t hv
    exact .inl ⟨v, s', hl, hr⟩

example : four.vals ≠ [] ∧ four.vals.length < maxLen ∧ Even four.vals.length := ⟨by decide, by decide, by decide⟩
/-- Half of the elements; with three of them, past the front. -/
example : (Iters.backLoop (fun _ => [DOp.popFront]) 9 four.end four [] >>= fun r => .ok (r.1, r.2.vals)) = .ok ([4, 3], [3, 4]) := by decide +kernel
/-- Popping the last element is defined as soon as the iterator is before it. -/
example : (Iters.backLoop (fun x => if x = 1 then [DOp.popBack] else []) 9 four.end four [] >>= fun r => .ok (r.1, r.2.vals)) = .ok ([4, 3, 2, 1], [1, 2, 3]) ∧
    (Iters.backLoop (fun x => if x = 3 then [DOp.popBack] else []) 9 four.end four [] >>= fun r => .ok (r.1, r.2.vals)) = .ub .badDeref := by
  decide +kernel
example : BackWalk (fun x => if x = 3 then [DOp.popFront] else []) [1, 2, 3, 4] 4 [4, 3, 2] (.ok [2, 3, 4]) :=
  .visit _ 3 3 4 _ _ rfl trivial rfl (.visit _ 2 1 3 _ _ rfl ⟨trivial, trivial⟩ rfl (.visit _ 0 0 2 _ _ rfl trivial rfl (.done _)))

/-! ## Ends -/

/-- C92: the end refers to no element, and there is nothing behind it. -/
theorem C92_end_not (s : Iters α) (n m : ℕ) : (∃ e, s.deref (.last n m) = .ub e) ∧ ∃ e, s.inc (.last n m) = .ub e := ⟨⟨_, rfl⟩, ⟨_, rfl⟩⟩

end Dq

/-- C88: the end of a set refers to no element, and there is nothing behind it. -/
theorem PSet.C88_end_not {α : Type} (s : PSet.Nodes α) : (∃ e, s.deref .last = .ub e) ∧ ∃ e, s.inc .last = .ub e := ⟨⟨_, rfl⟩, ⟨_, rfl⟩⟩

/-- C90: so for the end of a dictionary. -/
theorem PDict.C90_end_not {K V : Type} (s : PDict.Nodes K V) : (∃ e, s.deref .last = .ub e) ∧ ∃ e, s.inc .last = .ub e := ⟨⟨_, rfl⟩, ⟨_, rfl⟩⟩

/-- C94: the front of an empty list or deque is its end, and there is nothing before it. -/
theorem Lst.C94_front_not {α : Type} (s : Lst.Vec α) (h : s.slots = []) : (∃ e, s.dec (.last s.end) = .ub e) ∧ s.front = .last s.end := by
  refine ⟨⟨.badRange, ?_⟩, by rw [Lst.Vec.front, h]⟩
  rw [Lst.Vec.dec, if_pos rfl, h]
  rfl

theorem Dq.C94_front_not {α : Type} (s : Dq.Iters α) (W : s.c.WF) : ∃ e, s.dec s.begin = .ub e :=
  ⟨.badRange, Dq.dec_nth W (b := 0) (Nat.zero_le _)⟩

end Pyincpp
