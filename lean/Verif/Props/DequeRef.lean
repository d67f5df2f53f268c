import Verif.Model.DequeRef
import Verif.Props.Deque

/-! # C86: references into a `Deque` -/

namespace Pyincpp
namespace Dq

variable {α : Type}

/-- The contents. -/
def Cells.vals (s : Cells α) : List α := s.d.map Prod.snd

/-- A deque as it can be: the places have different numbers, all used. -/
structure Cells.WF (s : Cells α) : Prop where
  once : (s.d.map Prod.fst).Nodup
  below : ∀ p ∈ s.d, p.1 < s.next
  len : s.d.length ≤ maxLen

/-- Where the element at index `i` of `d` is after the operation; `none`: it was removed. (At `INT_MAX` elements pushing throws.) -/
def follow (d : List α) (i : ℕ) : DOp α → Option ℕ
  | .pushFront _ => if d.length = maxLen then some i else some (i + 1)
  | .extendFront m => some (i + m.length)
  | .popFront => if i = 0 then none else some (i - 1)
  | .popBack => if i + 1 = d.length then none else some i
  | .clear => none
  | _ => some i

/-- The contents after the operation. -/
def after (d : List α) (op : DOp α) : List α :=
  match op.abs d with
  | .ok (_, d') => d'
  | .error _ => d

/-- The same over a history. -/
def followAll : List (DOp α) → List α → ℕ → Option ℕ
  | [], _, i => some i
  | op :: ops, d, i => (follow d i op).bind (fun j => followAll ops (after d op) j)

theorem number_length : ∀ (n : ℕ) (xs : List α), (number n xs).length = xs.length
  | _, [] => rfl
  | n, x :: xs => by simp [number, number_length (n + 1) xs]

theorem number_vals : ∀ (n : ℕ) (xs : List α), (number n xs).map Prod.snd = xs
  | _, [] => rfl
  | n, x :: xs => by simp [number, number_vals (n + 1) xs]

theorem number_places : ∀ (n : ℕ) (xs : List α), (number n xs).map Prod.fst = List.range' n xs.length
  | _, [] => rfl
  | n, x :: xs => by simp [number, number_places (n + 1) xs, List.range'_succ]

theorem number_mem {n : ℕ} {xs : List α} {p : ℕ × α} (h : p ∈ number n xs) : n ≤ p.1 ∧ p.1 < n + xs.length := by
  have : p.1 ∈ (number n xs).map Prod.fst := List.mem_map_of_mem h
  rw [number_places, List.mem_range'_1] at this
  omega

theorem Cells.WF.place_inj {s : Cells α} (W : s.WF) {i j c : ℕ} {x y : α} (hi : s.d[i]? = some (c, x)) (hj : s.d[j]? = some (c, y)) :
    i = j := by
  have h1 : (s.d.map Prod.fst)[i]? = some c := by rw [List.getElem?_map, hi]; rfl
  have h2 : (s.d.map Prod.fst)[j]? = some c := by rw [List.getElem?_map, hj]; rfl
  have hl : i < (s.d.map Prod.fst).length := by
    by_contra hn; rw [List.getElem?_eq_none (by omega)] at h1; cases h1
  exact (List.getElem?_inj hl W.once).1 (h1.trans h2.symm)

/-- What a step does to a place `i` with the number `c`. -/
structure StepOk (s s' : Cells α) (op : DOp α) : Prop where
  wf : s'.WF
  vals : s'.vals = after s.vals op
  mono : s.next ≤ s'.next
  keep : ∀ i c x, s.d[i]? = some (c, x) →
    match follow s.vals i op with
    | some j => ∃ y, s'.d[j]? = some (c, y)
    | none => c ∉ s'.d.map Prod.fst
  old : ∀ c ∈ s'.d.map Prod.fst, c < s.next → c ∈ s.d.map Prod.fst

theorem step_tag {s : Cells α} (W : s.WF) {op : DOp α} {o : DOp (ℕ × α)} (ht : tag s op = some (.ok o)) (hf : o.Fair s.d) :
    match o.abs s.d with
    | .ok (_, d') => s.step op = (.ok (), ⟨d', s.next + uses op⟩) ∧ d'.length ≤ maxLen
    | .error m => s.step op = (.throw m, ⟨s.d, s.next + uses op⟩) := by
  have H := deque_step o s.d W.len hf
  unfold Cells.step
  rw [ht]
  cases ha : o.abs s.d with
  | ok q =>
    obtain ⟨r, d'⟩ := q
    rw [ha] at H
    simp only [H.1, true_and]
    exact H.2
  | error m =>
    rw [ha] at H
    simp only [H]

theorem StepOk.same {s : Cells α} (W : s.WF) {op : DOp α} (n : ℕ) (hv : after s.vals op = s.vals)
    (hk : ∀ i < s.d.length, follow s.vals i op = some i) : StepOk s ⟨s.d, s.next + n⟩ op where
  wf := ⟨W.once, fun p hp => by have := W.below p hp; show _ < s.next + n; omega, W.len⟩
  vals := hv.symm
  mono := by simp
  keep i c x hi := by
    have : i < s.d.length := by
      by_contra hn; rw [List.getElem?_eq_none (by omega)] at hi; cases hi
    rw [hk i this]
    exact ⟨x, hi⟩
  old c hc _ := hc

/-- Operations that rearrange values. -/
theorem StepOk.rearrange {s : Cells α} (W : s.WF) {op : DOp α} (l : List α) (hl : l.length = s.d.length) (hv : after s.vals op = l)
    (hk : ∀ i, follow s.vals i op = some i) : StepOk s ⟨(s.d.map Prod.fst).zip l, s.next⟩ op := by
  have hfst : ((s.d.map Prod.fst).zip l).map Prod.fst = s.d.map Prod.fst := by
    rw [List.map_fst_zip]; simp [hl]
  refine ⟨⟨by rw [hfst]; exact W.once, fun p hp => ?_, ?_⟩, ?_, Nat.le_refl _, fun i c x hi => ?_, fun c hc _ => by rwa [hfst] at hc⟩
  · have := (List.of_mem_zip hp).1
    rw [List.mem_map] at this
    obtain ⟨q, hq, e⟩ := this
    rw [← e]; exact W.below q hq
  · simp only [List.length_zip, List.length_map, hl, Nat.min_self]; exact W.len
  · rw [hv]; show ((s.d.map Prod.fst).zip l).map Prod.snd = l
    rw [List.map_snd_zip]; simp [hl]
  · rw [hk i]
    have : i < s.d.length := by
      by_contra hn; rw [List.getElem?_eq_none (by omega)] at hi; cases hi
    have hil : i < l.length := by omega
    refine ⟨l[i], ?_⟩
    simp only
    rw [List.getElem?_zip_eq_some]
    exact ⟨by rw [List.getElem?_map, hi]; rfl, List.getElem?_eq_getElem hil⟩

theorem step_rear (s : Cells α) (W : s.WF) (op : DOp α) (l : List α) (hf : op.Fair s.vals) (ha : op.abs s.vals = .ok (none, l))
    (ht : tag s op = none) (hl : l.length = s.d.length) (hk : ∀ i, follow s.vals i op = some i) :
    ((s.step op).1 = .ok () ∨ ∃ m, (s.step op).1 = .throw m) ∧ StepOk s (s.step op).2 op := by
  have hlen : s.vals.length = s.d.length := by simp [Cells.vals]
  have H := deque_step op s.vals (by rw [hlen]; exact W.len) hf
  rw [ha] at H
  have e : s.step op = (.ok (), ⟨(s.d.map Prod.fst).zip l, s.next⟩) := by
    unfold Cells.step
    rw [ht]
    simp only [Cells.vals] at H
    simp only [H.1]
  rw [e]
  exact ⟨.inl rfl, StepOk.rearrange W l hl (by simp only [after, ha]) hk⟩

theorem step_pushBack (s : Cells α) (W : s.WF) (e : α) (_ : DOp.Fair s.vals (.pushBack e)) :
    ((s.step (.pushBack e)).1 = .ok () ∨ ∃ m, (s.step (.pushBack e)).1 = .throw m) ∧ StepOk s (s.step (.pushBack e)).2 (.pushBack e) := by
  have hlen : s.vals.length = s.d.length := by simp [Cells.vals]
  have H := step_tag W (op := .pushBack e) (o := .pushBack (s.next, e)) rfl trivial
  simp only [DOp.abs] at H
  by_cases hfull : s.d.length = maxLen
  · rw [if_pos hfull] at H
    rw [H]
    exact ⟨.inr ⟨_, rfl⟩, StepOk.same W _ (by simp [after, DOp.abs, hlen, hfull]) (fun _ _ => rfl)⟩
  · rw [if_neg hfull] at H
    rw [H.1]
    refine ⟨.inl rfl, ⟨?_, ?_, H.2⟩, ?_, by simp, ?_, ?_⟩
    · simp only [List.map_append, List.map_cons, List.map_nil]
      rw [List.nodup_append]
      refine ⟨W.once, by simp, ?_⟩
      rintro a ha b hb rfl
      simp only [List.mem_singleton] at hb
      rw [List.mem_map] at ha
      obtain ⟨q, hq, e'⟩ := ha
      have := W.below q hq
      omega
    · intro p hp
      simp only [List.mem_append, List.mem_singleton] at hp
      rcases hp with hp | rfl
      · have := W.below p hp; show _ < s.next + 1; omega
      · show s.next < s.next + 1; omega
    · simp [after, DOp.abs, hfull, Cells.vals]
    · intro i c x hi
      have hil : i < s.d.length := by
        by_contra hn; rw [List.getElem?_eq_none (by omega)] at hi; cases hi
      exact ⟨x, by simp only; rw [List.getElem?_append_left hil, hi]⟩
    · intro c hc hlt
      simp only [List.map_append, List.map_cons, List.map_nil, List.mem_append, List.mem_singleton] at hc
      rcases hc with hc | rfl
      · exact hc
      · omega

theorem step_pushFront (s : Cells α) (W : s.WF) (e : α) (_ : DOp.Fair s.vals (.pushFront e)) :
    ((s.step (.pushFront e)).1 = .ok () ∨ ∃ m, (s.step (.pushFront e)).1 = .throw m) ∧ StepOk s (s.step (.pushFront e)).2 (.pushFront e) := by
  have hlen : s.vals.length = s.d.length := by simp [Cells.vals]
  have H := step_tag W (op := .pushFront e) (o := .pushFront (s.next, e)) rfl trivial
  simp only [DOp.abs] at H
  by_cases hfull : s.d.length = maxLen
  · rw [if_pos hfull] at H
    rw [H]
    exact ⟨.inr ⟨_, rfl⟩, StepOk.same W _ (by simp [after, DOp.abs, hlen, hfull]) (fun _ _ => by simp [follow, hlen, hfull])⟩
  · rw [if_neg hfull] at H
    rw [H.1]
    refine ⟨.inl rfl, ⟨?_, ?_, H.2⟩, ?_, by simp, ?_, ?_⟩
    · simp only [List.map_cons]
      rw [List.nodup_cons]
      refine ⟨?_, W.once⟩
      intro ha
      rw [List.mem_map] at ha
      obtain ⟨q, hq, e'⟩ := ha
      have := W.below q hq
      omega
    · intro p hp
      simp only [List.mem_cons] at hp
      rcases hp with rfl | hp
      · show s.next < s.next + 1; omega
      · have := W.below p hp; show _ < s.next + 1; omega
    · simp [after, DOp.abs, hfull, Cells.vals]
    · intro i c x hi
      simp only [follow, hlen, if_neg hfull]
      exact ⟨x, by rw [List.getElem?_cons_succ, hi]⟩
    · intro c hc hlt
      simp only [List.map_cons, List.mem_cons] at hc
      rcases hc with rfl | hc
      · omega
      · exact hc

theorem step_popBack (s : Cells α) (W : s.WF) (_ : DOp.Fair s.vals (.popBack)) :
    ((s.step (.popBack)).1 = .ok () ∨ ∃ m, (s.step (.popBack)).1 = .throw m) ∧ StepOk s (s.step (.popBack)).2 (.popBack) := by
  have hlen : s.vals.length = s.d.length := by simp [Cells.vals]
  have H := step_tag W (op := .popBack) (o := .popBack) rfl trivial
  simp only [DOp.abs] at H
  cases hl : s.d.getLast? with
  | none =>
    rw [List.getLast?_eq_none_iff] at hl
    simp only [hl, List.getLast?_nil] at H
    rw [H, ← hl]
    exact ⟨.inr ⟨_, rfl⟩, StepOk.same W _ (by simp [after, DOp.abs, Cells.vals, hl]) (fun i hi => by simp [hl] at hi)⟩
  | some q =>
    rw [hl] at H
    simp only at H
    rw [H.1]
    have hne : s.d ≠ [] := by rintro h; rw [h] at hl; cases hl
    refine ⟨.inl rfl, ⟨?_, ?_, H.2⟩, ?_, by simp, ?_, ?_⟩
    · exact W.once.sublist ((List.dropLast_sublist _).map _)
    · intro p hp
      have := W.below p (List.mem_of_mem_dropLast hp)
      show _ < s.next + _; omega
    · have : s.vals.getLast? = some q.2 := by simp [Cells.vals, List.getLast?_map, hl]
      simp only [after, DOp.abs, this]
      simp [Cells.vals]
    · intro i c x hi
      have hil : i < s.d.length := by
        by_contra hn; rw [List.getElem?_eq_none (by omega)] at hi; cases hi
      simp only [follow, hlen]
      by_cases hlast : i + 1 = s.d.length
      · simp only [if_pos hlast]
        intro hc
        rw [List.mem_map] at hc
        obtain ⟨⟨c', y⟩, hq, rfl⟩ := hc
        obtain ⟨j, hj, e⟩ := List.getElem_of_mem hq
        rw [List.length_dropLast] at hj
        rw [List.getElem_dropLast] at e
        have := W.place_inj hi (j := j) (y := y) (by rw [List.getElem?_eq_getElem (by omega), e])
        omega
      · simp only [if_neg hlast]
        exact ⟨x, by rw [List.getElem?_dropLast, if_pos (by omega), hi]⟩
    · intro c hc _
      exact ((List.dropLast_sublist _).map _).subset hc

theorem step_popFront (s : Cells α) (W : s.WF) (_ : DOp.Fair s.vals (.popFront)) :
    ((s.step (.popFront)).1 = .ok () ∨ ∃ m, (s.step (.popFront)).1 = .throw m) ∧ StepOk s (s.step (.popFront)).2 (.popFront) := by
  have hlen : s.vals.length = s.d.length := by simp [Cells.vals]
  have H := step_tag W (op := .popFront) (o := .popFront) rfl trivial
  simp only [DOp.abs] at H
  cases hl : s.d with
  | nil =>
    simp only [hl] at H
    rw [H, ← hl]
    exact ⟨.inr ⟨_, rfl⟩, StepOk.same W _ (by simp [after, DOp.abs, Cells.vals, hl]) (fun i hi => by simp [hl] at hi)⟩
  | cons q d =>
    simp only [hl] at H
    rw [H.1]
    have hsub : d.Sublist s.d := by rw [hl]; exact List.sublist_cons_self ..
    refine ⟨.inl rfl, ⟨?_, ?_, H.2⟩, ?_, by simp, ?_, ?_⟩
    · exact W.once.sublist (hsub.map _)
    · intro p hp
      have := W.below p (hsub.subset hp)
      show _ < s.next + _; omega
    · simp only [after, Cells.vals, hl, List.map_cons, DOp.abs]
    · intro i c x hi
      simp only [follow]
      by_cases h0 : i = 0
      · subst h0
        simp only [if_true]
        intro hc
        rw [List.mem_map] at hc
        obtain ⟨⟨c', y⟩, hq, rfl⟩ := hc
        obtain ⟨j, hj, e⟩ := List.getElem_of_mem hq
        have := W.place_inj hi (j := j + 1) (y := y) (by rw [hl, List.getElem?_cons_succ, List.getElem?_eq_getElem hj, e])
        omega
      · simp only [if_neg h0]
        obtain ⟨j, rfl⟩ := Nat.exists_eq_succ_of_ne_zero h0
        rw [hl, Nat.succ_eq_add_one, List.getElem?_cons_succ] at hi
        exact ⟨x, by simpa using hi⟩
    · intro c hc _
      exact (hsub.map _).subset hc

theorem step_back (s : Cells α) (W : s.WF) (_ : DOp.Fair s.vals (.back)) :
    ((s.step (.back)).1 = .ok () ∨ ∃ m, (s.step (.back)).1 = .throw m) ∧ StepOk s (s.step (.back)).2 (.back) := by
  have hlen : s.vals.length = s.d.length := by simp [Cells.vals]
  have H := step_tag W (op := .back) (o := .back) rfl trivial
  simp only [DOp.abs] at H
  cases hl : s.d.getLast? with
  | none =>
    rw [hl] at H
    rw [H]
    exact ⟨.inr ⟨_, rfl⟩, StepOk.same W _ (by simp [after, DOp.abs, Cells.vals, List.getLast?_map, hl]) (fun i _ => rfl)⟩
  | some q =>
    rw [hl] at H
    rw [H.1]
    exact ⟨.inl rfl, StepOk.same W _ (by simp [after, DOp.abs, Cells.vals, List.getLast?_map, hl]) (fun i _ => rfl)⟩

theorem step_front (s : Cells α) (W : s.WF) (_ : DOp.Fair s.vals (.front)) :
    ((s.step (.front)).1 = .ok () ∨ ∃ m, (s.step (.front)).1 = .throw m) ∧ StepOk s (s.step (.front)).2 (.front) := by
  have hlen : s.vals.length = s.d.length := by simp [Cells.vals]
  have H := step_tag W (op := .front) (o := .front) rfl trivial
  simp only [DOp.abs] at H
  cases hl : s.d.head? with
  | none =>
    rw [hl] at H
    rw [H]
    exact ⟨.inr ⟨_, rfl⟩, StepOk.same W _ (by simp [after, DOp.abs, Cells.vals, List.head?_map, hl]) (fun i _ => rfl)⟩
  | some q =>
    rw [hl] at H
    rw [H.1]
    exact ⟨.inl rfl, StepOk.same W _ (by simp [after, DOp.abs, Cells.vals, List.head?_map, hl]) (fun i _ => rfl)⟩

theorem step_get (s : Cells α) (W : s.WF) (i : ℤ) (hf : DOp.Fair s.vals (.get i)) :
    ((s.step (.get i)).1 = .ok () ∨ ∃ m, (s.step (.get i)).1 = .throw m) ∧ StepOk s (s.step (.get i)).2 (.get i) := by
  have hlen : s.vals.length = s.d.length := by simp [Cells.vals]
  have H := step_tag W (op := .get i) (o := .get i) rfl hf
  simp only [DOp.abs] at H
  cases hp : pyIndex s.d.length i with
  | none =>
    rw [hp] at H
    rw [H]
    exact ⟨.inr ⟨_, rfl⟩, StepOk.same W _ (by simp [after, DOp.abs, hlen, hp]) (fun i _ => rfl)⟩
  | some p =>
    rw [hp] at H
    rw [H.1]
    exact ⟨.inl rfl, StepOk.same W _ (by simp [after, DOp.abs, hlen, hp]) (fun i _ => rfl)⟩

theorem step_throw {s : Cells α} {op : DOp α} {w : String} (ht : tag s op = some (.throw w)) : s.step op = (.throw w, s) := by
  unfold Cells.step
  rw [ht]

theorem tag_assign_throw {s : Cells α} {i : ℤ} {e : α} {w : String} (h : s.at i = .throw w) :
    tag s (.assign i e) = some (.throw w) := by
  simp only [tag, h, Res.throw_bind]

theorem step_assign (s : Cells α) (W : s.WF) (i : ℤ) (e : α) (hf : DOp.Fair s.vals (.assign i e)) :
    ((s.step (.assign i e)).1 = .ok () ∨ ∃ m, (s.step (.assign i e)).1 = .throw m) ∧ StepOk s (s.step (.assign i e)).2 (.assign i e) := by
  have hlen : s.vals.length = s.d.length := by simp [Cells.vals]
  have hint : IsInt i := hf
  cases hp : pyIndex s.d.length i with
  | none =>
    obtain ⟨w, hat⟩ : ∃ w, s.at i = .throw w := by
      have h3 := C33_deque_index s.d W.len i
      have : i < -(s.d.length : Int) ∨ (s.d.length : Int) ≤ i := by
        unfold pyIndex at hp
        split at hp
        · cases hp
        · split at hp
          · cases hp
          · omega
      exact ⟨_, by rw [Cells.at, h3.2.2 this, Res.throw_bind]⟩
    have e1 : s.step (.assign i e) = (.throw w, s) := step_throw (tag_assign_throw hat)
    rw [e1]
    exact ⟨.inr ⟨_, rfl⟩, StepOk.same W 0 (by simp [after, DOp.abs, hlen, hp]) (fun i _ => rfl)⟩
  | some p =>
    have hpl : ∃ x, s.d[p]? = some x ∧ Dq.get s.d i = .ok x := by
      have h3 := C33_deque_index s.d W.len i
      unfold pyIndex at hp
      split at hp
      · rename_i h
        cases hp
        exact h3.1 h
      · split at hp
        · rename_i h
          cases hp
          obtain ⟨x, h1, h2⟩ := h3.2.1 h
          refine ⟨x, ?_, h2⟩
          rw [show s.d.length - i.natAbs = (s.d.length + i).toNat by omega]
          exact h1
        · cases hp
    obtain ⟨⟨c0, x0⟩, hx, hget⟩ := hpl
    have hpl : p < s.d.length := by
      by_contra hn; rw [List.getElem?_eq_none (by omega)] at hx; cases hx
    have ht : tag s (.assign i e) = some (.ok (.assign i (c0, e))) := by
      simp only [tag, Cells.at, hget]; rfl
    have H := step_tag W ht hint
    simp only [DOp.abs, hp] at H
    rw [H.1]
    have hfst : (s.d.set p (c0, e)).map Prod.fst = s.d.map Prod.fst := by
      rw [List.map_set]
      apply List.ext_getElem? fun j => ?_
      rw [List.getElem?_set]
      split
      · rename_i h
        subst h
        rw [List.getElem?_map, hx]
        simp [hpl]
      · rfl
    refine ⟨.inl rfl, ⟨?_, ?_, H.2⟩, ?_, by simp, ?_, ?_⟩
    · rw [hfst]; exact W.once
    · intro q hq
      have : q.1 ∈ (s.d.set p (c0, e)).map Prod.fst := List.mem_map_of_mem hq
      rw [hfst, List.mem_map] at this
      obtain ⟨q', h1, h2⟩ := this
      have := W.below q' h1
      show _ < s.next + _; omega
    · simp only [after, DOp.abs, hlen, hp]
      simp [Cells.vals, List.map_set]
    · intro j c x hj
      have hjl : j < s.d.length := by
        by_contra hn; rw [List.getElem?_eq_none (by omega)] at hj; cases hj
      simp only [follow]
      by_cases hjp : p = j
      · subst hjp
        rw [hx] at hj
        cases hj
        exact ⟨e, by rw [List.getElem?_set_self hjl]⟩
      · exact ⟨x, by rw [List.getElem?_set_ne hjp, hj]⟩
    · intro c hc _
      rwa [hfst] at hc

theorem step_extendBack (s : Cells α) (W : s.WF) (m : List α) (hf : DOp.Fair s.vals (.extendBack m)) :
    ((s.step (.extendBack m)).1 = .ok () ∨ ∃ w, (s.step (.extendBack m)).1 = .throw w) ∧ StepOk s (s.step (.extendBack m)).2 (.extendBack m) := by
  have hlen : s.vals.length = s.d.length := by simp [Cells.vals]
  have H := step_tag W (op := .extendBack m) (o := .extendBack (number s.next m)) rfl
    (by simp only [DOp.Fair, number_length] at hf ⊢; rwa [hlen] at hf)
  simp only [DOp.abs] at H
  rw [H.1]
  refine ⟨.inl rfl, ⟨?_, ?_, H.2⟩, ?_, by simp, ?_, ?_⟩
  · rw [List.map_append, number_places, List.nodup_append]
    refine ⟨W.once, List.nodup_range', ?_⟩
    rintro a ha b hb rfl
    rw [List.mem_map] at ha
    rw [List.mem_range'_1] at hb
    obtain ⟨q, hq, e'⟩ := ha
    have := W.below q hq
    omega
  · intro p hp
    rw [List.mem_append] at hp
    show _ < s.next + m.length
    rcases hp with hp | hp
    · have := W.below p hp; omega
    · have := number_mem hp; omega
  · simp [after, DOp.abs, Cells.vals, number_vals]
  · intro i c x hi
    have hil : i < s.d.length := by
      by_contra hn; rw [List.getElem?_eq_none (by omega)] at hi; cases hi
    exact ⟨x, by simp only; rw [List.getElem?_append_left hil, hi]⟩
  · intro c hc hlt
    simp only [List.map_append, number_places, List.mem_append, List.mem_range'_1] at hc
    rcases hc with hc | hc
    · exact hc
    · omega

theorem step_extendFront (s : Cells α) (W : s.WF) (m : List α) (hf : DOp.Fair s.vals (.extendFront m)) :
    ((s.step (.extendFront m)).1 = .ok () ∨ ∃ w, (s.step (.extendFront m)).1 = .throw w) ∧ StepOk s (s.step (.extendFront m)).2 (.extendFront m) := by
  have hlen : s.vals.length = s.d.length := by simp [Cells.vals]
  have H := step_tag W (op := .extendFront m) (o := .extendFront (number s.next m)) rfl
    (by simp only [DOp.Fair, number_length] at hf ⊢; rwa [hlen] at hf)
  simp only [DOp.abs] at H
  rw [H.1]
  refine ⟨.inl rfl, ⟨?_, ?_, H.2⟩, ?_, by simp, ?_, ?_⟩
  · rw [List.map_append, number_places, List.nodup_append]
    refine ⟨List.nodup_range', W.once, ?_⟩
    rintro b hb a ha rfl
    rw [List.mem_map] at ha
    rw [List.mem_range'_1] at hb
    obtain ⟨q, hq, e'⟩ := ha
    have := W.below q hq
    omega
  · intro p hp
    rw [List.mem_append] at hp
    show _ < s.next + m.length
    rcases hp with hp | hp
    · have := number_mem hp; omega
    · have := W.below p hp; omega
  · simp [after, DOp.abs, Cells.vals, number_vals]
  · intro i c x hi
    simp only [follow]
    exact ⟨x, by rw [List.getElem?_append_right (by rw [number_length]; omega), number_length, Nat.add_sub_cancel, hi]⟩
  · intro c hc hlt
    simp only [List.map_append, number_places, List.mem_append, List.mem_range'_1] at hc
    rcases hc with hc | hc
    · omega
    · exact hc

theorem step_clear (s : Cells α) (W : s.WF) (_ : DOp.Fair s.vals (.clear)) :
    ((s.step (.clear)).1 = .ok () ∨ ∃ m, (s.step (.clear)).1 = .throw m) ∧ StepOk s (s.step (.clear)).2 (.clear) := by
  have hlen : s.vals.length = s.d.length := by simp [Cells.vals]
  have H := step_tag W (op := .clear) (o := .clear) rfl trivial
  simp only [DOp.abs] at H
  rw [H.1]
  exact ⟨.inl rfl, ⟨by simp, by simp, by simp⟩, by simp [after, DOp.abs, Cells.vals], by simp, fun i c x _ => by simp [follow], by simp⟩

theorem step_ok (s : Cells α) (W : s.WF) (op : DOp α) (hf : op.Fair s.vals) :
    ((s.step op).1 = .ok () ∨ ∃ m, (s.step op).1 = .throw m) ∧ StepOk s (s.step op).2 op := by
  have hlen : s.vals.length = s.d.length := by simp [Cells.vals]
  cases op with
  | rotL n => exact step_rear s W (.rotL n) _ hf rfl rfl (by simp [rotated, hlen]) (fun _ => rfl)
  | rotR n => exact step_rear s W (.rotR n) _ hf rfl rfl (by simp [rotated, hlen]) (fun _ => rfl)
  | reverse => exact step_rear s W .reverse _ hf rfl rfl (by simp [hlen]) (fun _ => rfl)
  | pushBack e => exact step_pushBack s W e hf
  | pushFront e => exact step_pushFront s W e hf
  | popBack => exact step_popBack s W  hf
  | popFront => exact step_popFront s W  hf
  | back => exact step_back s W  hf
  | front => exact step_front s W  hf
  | get i => exact step_get s W i hf
  | assign i e => exact step_assign s W i e hf
  | extendBack m => exact step_extendBack s W m hf
  | extendFront m => exact step_extendFront s W m hf
  | clear => exact step_clear s W  hf

theorem read_place {s : Cells α} (W : s.WF) {i c : ℕ} {x : α} (h : s.d[i]? = some (c, x)) : s.read c = .ok x := by
  unfold Cells.read
  cases hf : s.d.find? (fun p => p.1 == c) with
  | none =>
    rw [List.find?_eq_none] at hf
    have := hf _ (List.mem_of_getElem? h)
    simp at this
  | some q =>
    have h1 := List.find?_some hf
    obtain ⟨j, hj, e⟩ := List.getElem_of_mem (List.mem_of_find?_eq_some hf)
    simp only [beq_iff_eq] at h1
    obtain ⟨c', y⟩ := q
    simp only at h1
    subst h1
    have hj' : s.d[j]? = some (c', y) := by rw [List.getElem?_eq_getElem hj, e]
    have := W.place_inj h hj'
    subst this
    rw [h] at hj'
    cases hj'
    rfl

theorem read_lost {s : Cells α} {c : ℕ} (h : c ∉ s.d.map Prod.fst) : s.read c = .ub .badDeref := by
  have : s.d.find? (fun p => p.1 == c) = none := by
    rw [List.find?_eq_none]
    rintro ⟨c', y⟩ hp
    have : c' ≠ c := by
      rintro rfl
      exact h (List.mem_map_of_mem hp)
    simpa using this
  rw [Cells.read, this]

theorem run_cons {s : Cells α} {op : DOp α} {ops : List (DOp α)} (h : (s.step op).1 = .ok () ∨ ∃ m, (s.step op).1 = .throw m) :
    Cells.run (op :: ops) s = Cells.run ops (s.step op).2 := by
  rw [Cells.run]
  cases hs : s.step op with
  | mk r s1 =>
    rw [hs] at h
    rcases h with h | ⟨m, h⟩ <;> simp only at h <;> subst h <;> rfl

theorem fair_rest {d : List α} {op : DOp α} {ops : List (DOp α)} (h : DOp.FairRun d (op :: ops)) :
    op.Fair d ∧ DOp.FairRun (after d op) ops := by
  obtain ⟨h1, h2⟩ := h
  refine ⟨h1, ?_⟩
  unfold after
  cases ha : op.abs d with
  | ok q => rw [ha] at h2; exact h2
  | error m => rw [ha] at h2; exact h2

theorem absRun_cons (d : List α) (op : DOp α) (ops : List (DOp α)) : (DOp.absRun d (op :: ops)).2 = (DOp.absRun (after d op) ops).2 := by
  rw [DOp.absRun, after]
  cases op.abs d with
  | ok q => rfl
  | error m => rfl

theorem run_lost : ∀ (ops : List (DOp α)) (s : Cells α), s.WF → DOp.FairRun s.vals ops → ∀ c, c < s.next → c ∉ s.d.map Prod.fst →
    ∃ s', Cells.run ops s = some s' ∧ s'.vals = (DOp.absRun s.vals ops).2 ∧ s'.read c = .ub .badDeref
  | [], s, _, _, c, _, h => ⟨s, rfl, rfl, read_lost h⟩
  | op :: ops, s, W, hf, c, hc, h => by
    obtain ⟨h1, h2⟩ := fair_rest hf
    obtain ⟨a, S⟩ := step_ok s W op h1
    rw [← S.vals] at h2
    obtain ⟨s', e1, e2, e3⟩ := run_lost ops _ S.wf h2 c (Nat.lt_of_lt_of_le hc S.mono) (fun hn => h (S.old c hn hc))
    exact ⟨s', by rw [run_cons a, e1], by rw [e2, S.vals, absRun_cons], e3⟩

/-- C86: after any (fair) history the deque has the contents of C42, and a reference to the element at index `i` gives the value
that is now at the index the element has moved to (`followAll`); it cannot be used exactly if the element was popped or cleared. -/
theorem C86_exact (ops : List (DOp α)) (s : Cells α) (W : s.WF) (hf : DOp.FairRun s.vals ops) (i c : ℕ) (x : α)
    (hi : s.d[i]? = some (c, x)) : ∃ s', Cells.run ops s = some s' ∧ s'.vals = (DOp.absRun s.vals ops).2 ∧
      match followAll ops s.vals i with
      | some j => ∃ y, s'.vals[j]? = some y ∧ s'.read c = .ok y
      | none => s'.read c = .ub .badDeref := by
  induction ops generalizing s i x with
  | nil => exact ⟨s, rfl, rfl, x, by rw [Cells.vals, List.getElem?_map, hi]; rfl, read_place W hi⟩
  | cons op ops ih =>
    obtain ⟨h1, h2⟩ := fair_rest hf
    obtain ⟨a, S⟩ := step_ok s W op h1
    have hv := S.vals
    rw [← hv] at h2
    have hk := S.keep i c x hi
    rw [run_cons a, absRun_cons, ← hv]
    unfold followAll
    cases hfo : follow s.vals i op with
    | some j =>
      rw [hfo] at hk
      obtain ⟨y, hy⟩ := hk
      obtain ⟨s', e1, e2, e3⟩ := ih _ S.wf h2 j y hy
      exact ⟨s', e1, e2, by rw [Option.bind_some, ← hv]; exact e3⟩
    | none =>
      rw [hfo] at hk
      obtain ⟨s', e1, e2, e3⟩ := run_lost ops _ S.wf h2 c (Nat.lt_of_lt_of_le (W.below _ (List.mem_of_getElem? hi)) S.mono) hk
      exact ⟨s', e1, e2, e3⟩

/-- Operations that neither assign nor rearrange. -/
def Moves : DOp α → Prop
  | .assign _ _ | .rotL _ | .rotR _ | .reverse => False
  | _ => True

/-- C86: without assignments and rearrangements, a reference keeps referring to its element for as long as that is in the deque, however
many elements are pushed and popped at both ends. -/
theorem C86_same_element (ops : List (DOp α)) (s : Cells α) (W : s.WF) (hf : DOp.FairRun s.vals ops) (hm : ∀ op ∈ ops, Moves op)
    (i c : ℕ) (x : α) (hi : s.d[i]? = some (c, x)) : ∃ s', Cells.run ops s = some s' ∧
      (s'.read c = .ok x ∨ (followAll ops s.vals i = none ∧ s'.read c = .ub .badDeref)) := by
  have hx : s.vals[i]? = some x := by rw [Cells.vals, List.getElem?_map, hi]; rfl
  have key : ∀ (ops : List (DOp α)) (d : List α) (i j : ℕ), (∀ op ∈ ops, Moves op) → DOp.FairRun d ops → d[i]? = some x →
      followAll ops d i = some j → (DOp.absRun d ops).2[j]? = some x := by
    intro ops
    induction ops with
    | nil => intro d i j _ _ h1 h2; cases h2; exact h1
    | cons op ops ih =>
      intro d i j hm hf h1 h2
      rw [absRun_cons]
      rw [followAll] at h2
      have hil : i < d.length := by
        by_contra hn; rw [List.getElem?_eq_none (by omega)] at h1; cases h1
      cases hfo : follow d i op with
      | none => rw [hfo] at h2; cases h2
      | some k =>
        rw [hfo, Option.bind_some] at h2
        refine ih _ k j (fun o ho => hm o (by simp [ho])) (fair_rest hf).2 ?_ h2
        have hmo := hm op (by simp)
        cases op with
        | assign _ _ => exact absurd hmo id
        | rotL _ => exact absurd hmo id
        | rotR _ => exact absurd hmo id
        | reverse => exact absurd hmo id
        | pushBack e =>
          cases hfo
          simp only [after, DOp.abs]
          split
          · rename_i h; split at h
            · cases h
            · cases h; rw [List.getElem?_append_left hil, h1]
          · exact h1
        | pushFront e =>
          simp only [follow] at hfo
          simp only [after, DOp.abs]
          split at hfo
          · rename_i h; cases hfo; rw [if_pos h]; exact h1
          · rename_i h; cases hfo; rw [if_neg h]; exact h1
        | popBack =>
          simp only [follow] at hfo
          split at hfo
          · cases hfo
          · cases hfo
            simp only [after, DOp.abs]
            cases hl : d.getLast? with
            | none => exact h1
            | some y => simp only; rw [List.getElem?_dropLast, if_pos (by omega), h1]
        | popFront =>
          simp only [follow] at hfo
          split at hfo
          · cases hfo
          · rename_i h0
            cases hfo
            obtain ⟨k, rfl⟩ := Nat.exists_eq_succ_of_ne_zero h0
            cases d with
            | nil => cases h1
            | cons y d => simpa [after, DOp.abs] using h1
        | back =>
          cases hfo
          simp only [after, DOp.abs]
          cases d.getLast? <;> exact h1
        | front =>
          cases hfo
          simp only [after, DOp.abs]
          cases d.head? <;> exact h1
        | get n =>
          cases hfo
          simp only [after, DOp.abs]
          cases pyIndex d.length n <;> exact h1
        | extendBack m =>
          cases hfo
          simp only [after, DOp.abs]
          rw [List.getElem?_append_left hil, h1]
        | extendFront m =>
          cases hfo
          simp only [after, DOp.abs]
          rw [List.getElem?_append_right (by omega), Nat.add_sub_cancel, h1]
        | clear => cases hfo
  obtain ⟨s', e1, e2, e3⟩ := C86_exact ops s W hf i c x hi
  refine ⟨s', e1, ?_⟩
  cases hfo : followAll ops s.vals i with
  | none => rw [hfo] at e3; exact .inr ⟨rfl, e3⟩
  | some j =>
    rw [hfo] at e3
    obtain ⟨y, h1, h2⟩ := e3
    have := key ops s.vals i j hm hf hx hfo
    rw [← e2, h1] at this
    cases this
    exact .inl h2

/-- C86: the references `front()` and `back()` return are those of the first and the last index; on an empty deque both throw. -/
theorem C86_ends (s : Cells α) (hs : s.d.length ≤ maxLen) :
    (∀ c x, s.d.head? = some (c, x) → s.frontRef = .ok c ∧ s.at 0 = .ok c) ∧
    (∀ c x, s.d.getLast? = some (c, x) → s.backRef = .ok c ∧ s.at (-1) = .ok c) ∧
    (s.d = [] → s.frontRef = .throw msgEmpty ∧ s.backRef = .throw msgEmpty) := by
  refine ⟨fun c x h => ?_, fun c x h => ?_, fun h => ?_⟩
  · have hne : 0 < s.d.length := List.length_pos_iff.2 (by rintro e; rw [e] at h; cases h)
    obtain ⟨y, h1, h2⟩ := (C33_deque_index s.d hs 0).1 ⟨le_rfl, by omega⟩
    rw [show (0 : ℤ).toNat = 0 from rfl, ← List.head?_eq_getElem?, h] at h1
    cases h1
    exact ⟨by rw [Cells.frontRef, Dq.front_run _ hs, h]; rfl, by rw [Cells.at, h2]; rfl⟩
  · have hne : 0 < s.d.length := List.length_pos_iff.2 (by rintro e; rw [e] at h; cases h)
    obtain ⟨y, h1, h2⟩ := (C33_deque_index s.d hs (-1)).2.1 ⟨by omega, by omega⟩
    rw [show ((s.d.length : ℤ) + -1).toNat = s.d.length - 1 by omega, ← List.getLast?_eq_getElem?, h] at h1
    cases h1
    exact ⟨by rw [Cells.backRef, Dq.back_run _ hs, h]; rfl, by rw [Cells.at, h2]; rfl⟩
  · exact ⟨by rw [Cells.frontRef, Dq.front_run _ hs, h]; rfl, by rw [Cells.backRef, Dq.back_run _ hs, h]; rfl⟩

/-- A reference to the middle element survives pushes and pops at both ends, and is lost when the element is popped; reversing
puts another value into its place. -/
example : (Cells.run [.pushFront 9, .popBack, .extendFront [7, 8], .popFront] (⟨[(0, 1), (1, 2), (2, 3)], 3⟩ : Cells ℕ)).map
    (fun s => (s.vals, s.read 1, s.read 2)) = some ([8, 9, 1, 2], .ok 2, .ub .badDeref) := by decide +kernel
example : (Cells.run [.reverse] (⟨[(0, 1), (1, 2), (2, 3)], 3⟩ : Cells ℕ)).map (fun s => (s.vals, s.read 0)) =
    some ([3, 2, 1], .ok 3) := by decide +kernel
example : (⟨[(0, 1), (1, 2), (2, 3)], 3⟩ : Cells ℕ).WF := ⟨by decide, by decide, by decide⟩

end Dq
end Pyincpp
