import Verif.Model.ListRef
import Verif.Props.List
import Verif.Props.NoEffect

/-! # C85: references into a `List` -/

namespace Pyincpp
namespace Lst

variable {α : Type}

/-- A vector as it can be: every element has its place, the places have different numbers, all used, and the capacity suffices. -/
structure Vec.WF (s : Vec α) : Prop where
  len : s.slots.length = s.l.length
  once : s.slots.Nodup
  below : ∀ c ∈ s.slots, c < s.next
  cap : s.l.length ≤ s.cap

/-- The place `i` is not lost in the step. -/
def VOp.StaysIn [BEq α] [Inhabited α] (mem : Mem) (o : VOp α) (s : Vec α) (i : ℕ) : Prop :=
  ∀ l', o.on mem s.l = (.ok (), l') → i < o.stay s.cap s.l l' ∧ i < l'.length

/-- The place `i` is not lost in any step. -/
def VOp.Stays [BEq α] [Inhabited α] (mem : Mem) (grow : ℕ → ℕ → ℕ) (i : ℕ) : List (VOp α) → Vec α → Prop
  | [], _ => True
  | o :: ops, s => o.StaysIn mem s i ∧ VOp.Stays mem grow i ops (o.step mem grow s).2

/-! ## One step -/

theorem on_throw [BEq α] [Inhabited α] (mem : Mem) (o : VOp α) (l l' : List α) (m : String) (h : o.on mem l = (.throw m, l')) : l' = l := by
  have C := C61_list (α := α) mem l m
  have key : (o.on mem l).1 = .throw m → (o.on mem l).2 = l := by
    cases o with
    | op o =>
      intro h
      have h' : (o.step mem l).1 = .throw m := by
        simp only [VOp.on, NoEff.bind_run] at h
        revert h
        cases hs : o.step mem l with
        | mk r l'' => cases r <;> intro h <;> first | exact h | (cases h <;> rfl)
      have h2 := C.1 o h'
      simp only [VOp.on, NoEff.bind_run]
      cases hs : o.step mem l with
      | mk r l'' => rw [hs] at h' h2; simp only at h' h2; subst h'; exact h2
    | sort lt => exact C.2.2.1 lt
    | uniquify => exact C.2.1
    | mulAssign n => exact C.2.2.2.2 n
    | filter p => exact C.2.2.2.1 p
  have := key (by rw [h])
  rwa [h] at this

theorem Vec.after_wf [BEq α] {grow : ℕ → ℕ → ℕ} (hg : ∀ c n, n ≤ grow c n) {s : Vec α} (W : s.WF) (o : VOp α) (l' : List α) :
    (s.after grow o l').WF := by
  refine ⟨?_, ?_, ?_, ?_⟩
  · simp only [Vec.after, List.length_append, List.length_take, List.length_range']
    omega
  · simp only [Vec.after]
    rw [List.nodup_append]
    refine ⟨W.once.sublist (List.take_sublist ..), List.nodup_range', ?_⟩
    rintro a ha b hb rfl
    have h1 := W.below a (List.mem_of_mem_take ha)
    rw [List.mem_range'_1] at hb
    omega
  · intro c hc
    simp only [Vec.after, List.mem_append, List.mem_range'_1] at hc ⊢
    rcases hc with hc | hc
    · have := W.below c (List.mem_of_mem_take hc)
      omega
    · omega
  · simp only [Vec.after]
    split
    · exact hg ..
    · split
      · assumption
      · exact hg ..

theorem step_wf [BEq α] [Inhabited α] {mem : Mem} {grow : ℕ → ℕ → ℕ} (hg : ∀ c n, n ≤ grow c n) {s : Vec α} (W : s.WF) (o : VOp α)
    (h : (o.step mem grow s).1 = .ok () ∨ ∃ m, (o.step mem grow s).1 = .throw m) : (o.step mem grow s).2.WF := by
  unfold VOp.step at h ⊢
  cases hs : o.on mem s.l with
  | mk r l' =>
    rw [hs] at h
    cases r with
    | ok u => exact Vec.after_wf hg W o l'
    | throw m =>
      have := on_throw mem o s.l l' m hs
      subst this
      exact W
    | ub u => rcases h with h | ⟨m, h⟩ <;> cases h
    | fuel => rcases h with h | ⟨m, h⟩ <;> cases h

/-- A place that is not lost keeps its number. -/
theorem step_stays [BEq α] [Inhabited α] {mem : Mem} {grow : ℕ → ℕ → ℕ} {s : Vec α} (o : VOp α) {i c : ℕ}
    (hi : s.slots[i]? = some c) (h : o.StaysIn mem s i) : (o.step mem grow s).2.slots[i]? = some c := by
  have hlt : i < s.slots.length := by
    by_contra hn
    rw [List.getElem?_eq_none (by omega)] at hi; cases hi
  unfold VOp.step
  cases hs : o.on mem s.l with
  | mk r l' =>
    cases r with
    | ok u =>
      obtain ⟨h1, h2⟩ := h l' hs
      simp only [Vec.after]
      rw [List.getElem?_append_left (by rw [List.length_take]; omega), List.getElem?_take, if_pos (by omega), hi]
    | _ => exact hi

/-- A number that is lost does not come back. -/
theorem step_lost [BEq α] [Inhabited α] {mem : Mem} {grow : ℕ → ℕ → ℕ} {s : Vec α} (o : VOp α) {c : ℕ} (hc : c < s.next)
    (h : c ∉ s.slots) : c < (o.step mem grow s).2.next ∧ c ∉ (o.step mem grow s).2.slots := by
  unfold VOp.step
  cases hs : o.on mem s.l with
  | mk r l' =>
    cases r with
    | ok u =>
      simp only [Vec.after]
      refine ⟨by omega, ?_⟩
      rw [List.mem_append, List.mem_range'_1]
      rintro (h' | h')
      · exact h (List.mem_of_mem_take h')
      · omega
    | _ => exact ⟨hc, h⟩

/-- A place that is lost loses its number. -/
theorem step_loses [BEq α] [Inhabited α] {mem : Mem} {grow : ℕ → ℕ → ℕ} {s : Vec α} (W : s.WF) (o : VOp α) {i c : ℕ}
    (hi : s.slots[i]? = some c) (h : ¬ o.StaysIn mem s i) : c < (o.step mem grow s).2.next ∧ c ∉ (o.step mem grow s).2.slots := by
  have hmem : c ∈ s.slots := List.mem_of_getElem? hi
  have hb := W.below c hmem
  unfold VOp.StaysIn at h
  push Not at h
  obtain ⟨l', hs, hk⟩ := h
  unfold VOp.step
  rw [hs]
  simp only [Vec.after]
  refine ⟨by omega, ?_⟩
  rw [List.mem_append, List.mem_range'_1]
  rintro (h' | h')
  · obtain ⟨j, hj, e⟩ := List.getElem_of_mem h'
    rw [List.getElem_take] at e
    rw [List.length_take] at hj
    have hlt : i < s.slots.length := by
      by_contra hn
      rw [List.getElem?_eq_none (by omega)] at hi; cases hi
    rw [List.getElem?_eq_getElem hlt] at hi
    have : j = i := (List.Nodup.getElem_inj_iff W.once).1 (by rw [e]; exact (Option.some.inj hi).symm)
    subst this
    have := hk (by omega)
    omega
  · omega

theorem read_place {s : Vec α} (W : s.WF) {i c : ℕ} (hi : s.slots[i]? = some c) : ∃ x, s.l[i]? = some x ∧ s.read c = .ok x := by
  have hlt : i < s.slots.length := by
    by_contra hn
    rw [List.getElem?_eq_none (by omega)] at hi; cases hi
  rw [List.getElem?_eq_getElem hlt] at hi
  have hc := Option.some.inj hi
  have hf : s.slots.findIdx (· == c) = i := by
    rw [List.findIdx_eq hlt]
    refine ⟨by simp [hc], fun j hj => ?_⟩
    have hne : s.slots[j] ≠ s.slots[i] := fun e => by
      have := (List.Nodup.getElem_inj_iff W.once).1 e
      omega
    simpa [hc] using hne
  have hl : i < s.l.length := by rw [← W.len]; exact hlt
  exact ⟨s.l[i], List.getElem?_eq_getElem hl, by rw [Vec.read, hf, List.getElem?_eq_getElem hl]⟩

theorem read_lost {s : Vec α} (W : s.WF) {c : ℕ} (h : c ∉ s.slots) : s.read c = .ub .badDeref := by
  have hf : s.slots.findIdx (· == c) = s.slots.length := by
    rw [List.findIdx_eq_length]
    intro x hx
    have : x ≠ c := fun e => h (e ▸ hx)
    simpa using this
  rw [Vec.read, hf, W.len, List.getElem?_eq_none (Nat.le_refl _)]

theorem run_lost [BEq α] [Inhabited α] {mem : Mem} {grow : ℕ → ℕ → ℕ} (hg : ∀ c n, n ≤ grow c n) : ∀ (ops : List (VOp α)) {s s' : Vec α} (_ : s.WF) {c : ℕ}
    (_ : c < s.next) (_ : c ∉ s.slots) (_ : VOp.run mem grow ops s = some s'), s'.WF ∧ c ∉ s'.slots
  | [], s, s', W, c, hc, h, hr => by cases hr; exact ⟨W, h⟩
  | o :: ops, s, s', W, c, hc, h, hr => by
    have H := step_lost (mem := mem) (grow := grow) o hc h
    have hw := step_wf (mem := mem) hg W o
    rw [VOp.run] at hr
    cases hs : o.step mem grow s with
    | mk r s1 =>
      rw [hs] at hr H hw
      cases r with
      | ok u => exact run_lost hg ops (hw (.inl rfl)) H.1 H.2 hr
      | throw m => exact run_lost hg ops (hw (.inr ⟨m, rfl⟩)) H.1 H.2 hr
      | ub u => cases hr
      | fuel => cases hr

/-- C85: a reference to the place `i` can be used after any operations exactly if they lose no place up to it, and then it gives
the element that is now at index `i`. -/
theorem C85_exact_partial [BEq α] [Inhabited α] (mem : Mem) (grow : ℕ → ℕ → ℕ) (hg : ∀ c n, n ≤ grow c n) (ops : List (VOp α)) (s s' : Vec α)
    (W : s.WF) (i c : ℕ) (hi : s.slots[i]? = some c) (hr : VOp.run mem grow ops s = some s') :
    (VOp.Stays mem grow i ops s → ∃ x, s'.l[i]? = some x ∧ s'.read c = .ok x) ∧
    (¬ VOp.Stays mem grow i ops s → s'.read c = .ub .badDeref) := by
  induction ops generalizing s with
  | nil =>
    cases hr
    exact ⟨fun _ => read_place W hi, fun h => absurd trivial h⟩
  | cons o ops ih =>
    have hst := step_stays (mem := mem) (grow := grow) o hi
    have hls := step_loses (mem := mem) (grow := grow) W o hi
    have hw := step_wf (mem := mem) hg W o
    rw [VOp.run] at hr
    simp only [VOp.Stays]
    cases hs : o.step mem grow s with
    | mk r s1 =>
      rw [hs] at hr hst hls hw
      have hw1 : s1.WF ∧ VOp.run mem grow ops s1 = some s' := by
        cases r with
        | ok u => exact ⟨hw (.inl rfl), hr⟩
        | throw m => exact ⟨hw (.inr ⟨m, rfl⟩), hr⟩
        | ub u => cases hr
        | fuel => cases hr
      by_cases h1 : o.StaysIn mem s i
      · obtain ⟨a, b⟩ := ih s1 hw1.1 (hst h1) hw1.2
        exact ⟨fun h => a h.2, fun h => b (fun h2 => h ⟨h1, h2⟩)⟩
      · refine ⟨fun h => absurd h.1 h1, fun _ => ?_⟩
        obtain ⟨a, b⟩ := hls h1
        obtain ⟨w, n⟩ := run_lost hg ops hw1.1 a b hw1.2
        exact read_lost w n

/-- C85: assigning through a reference that can be used is assigning to `list[i]`; it loses no place. -/
theorem C85_write (s : Vec α) (W : s.WF) (i c : ℕ) (hi : s.slots[i]? = some c) (x : α) :
    ∃ s', s.write c x = .ok s' ∧ s'.WF ∧ s'.l = s.l.set i x ∧ s'.slots = s.slots := by
  have hlt : i < s.slots.length := by
    by_contra hn
    rw [List.getElem?_eq_none (by omega)] at hi; cases hi
  rw [List.getElem?_eq_getElem hlt] at hi
  have hc := Option.some.inj hi
  have hf : s.slots.findIdx (· == c) = i := by
    rw [List.findIdx_eq hlt]
    refine ⟨by simp [hc], fun j hj => ?_⟩
    have hne : s.slots[j] ≠ s.slots[i] := fun e => by
      have := (List.Nodup.getElem_inj_iff W.once).1 e
      omega
    simpa [hc] using hne
  have hl : i < s.l.length := by rw [← W.len]; exact hlt
  refine ⟨{ s with l := s.l.set i x }, by rw [Vec.write, hf, if_pos hl], ⟨by simpa using W.len, W.once, W.below, by simpa using W.cap⟩,
    rfl, rfl⟩

/-! ## The single operations -/

theorem on_op [DecidableEq α] [Inhabited α] (o : LOp α) (l : List α) (hl : l.length ≤ maxLen) (ht : o.Typed) (hf : o.Fair l) {r : Option α}
    {l' : List α} (h : o.abs l = .ok (r, l')) : (VOp.op o).on .lenient l = (.ok (), l') := by
  have := list_step o l hl ht hf
  rw [h] at this
  simp only [VOp.on, NoEff.bind_run, this.1]
  rfl

theorem step_of_on [BEq α] [Inhabited α] {mem : Mem} {grow : ℕ → ℕ → ℕ} {o : VOp α} {s : Vec α} {l' : List α} (h : o.on mem s.l = (.ok (), l')) :
    o.step mem grow s = (.ok (), s.after grow o l') := by
  rw [VOp.step, h]

/-- One operation that returns: the reference to `i` afterwards. -/
theorem read_after [BEq α] [Inhabited α] {mem : Mem} {grow : ℕ → ℕ → ℕ} (hg : ∀ c n, n ≤ grow c n) {o : VOp α} {s : Vec α} (W : s.WF) {l' : List α}
    (h : o.on mem s.l = (.ok (), l')) {i c : ℕ} (hi : s.slots[i]? = some c) :
    (i < o.stay s.cap s.l l' → i < l'.length → ∃ x, l'[i]? = some x ∧ (s.after grow o l').read c = .ok x) ∧
    (o.stay s.cap s.l l' ≤ i → (s.after grow o l').read c = .ub .badDeref) := by
  have hr : VOp.run mem grow [o] s = some (s.after grow o l') := by rw [VOp.run, step_of_on h]; rfl
  obtain ⟨a, b⟩ := C85_exact_partial mem grow hg [o] s _ W i c hi hr
  refine ⟨fun h1 h2 => a ⟨fun l'' e => ?_, trivial⟩, fun h1 => b fun h2 => ?_⟩
  · rw [h] at e; cases e; exact ⟨h1, h2⟩
  · have := (h2.1 l' h).1
    omega

/-- C85, appending: references stay exactly while the capacity suffices, which the class does not show. -/
theorem C85_append [DecidableEq α] [Inhabited α] (grow : ℕ → ℕ → ℕ) (hg : ∀ c n, n ≤ grow c n) (s : Vec α) (W : s.WF) (hl : s.l.length < maxLen) (e : α)
    (i c : ℕ) (hi : s.slots[i]? = some c) : ∃ s', (VOp.op (.append e)).step .lenient grow s = (.ok (), s') ∧ s'.l = s.l ++ [e] ∧
      (s.l.length < s.cap → ∃ x, s.l[i]? = some x ∧ s'.read c = .ok x) ∧ (s.l.length = s.cap → s'.read c = .ub .badDeref) := by
  have habs : (LOp.append e).abs s.l = .ok (none, s.l ++ [e]) := by simp only [LOp.abs]; rw [if_neg (by omega)]
  have h := on_op (.append e) s.l (by omega) trivial trivial habs
  have hlt : i < s.l.length := by
    rw [← W.len]
    by_contra hn
    rw [List.getElem?_eq_none (by omega)] at hi; cases hi
  obtain ⟨a, b⟩ := read_after (grow := grow) hg W h hi
  refine ⟨_, step_of_on h, rfl, fun hc => ?_, fun hc => b ?_⟩
  · obtain ⟨x, h1, h2⟩ := a (by simp only [VOp.stay, if_pos hc]; exact hlt) (by simp; omega)
    rw [List.getElem?_append_left hlt] at h1
    exact ⟨x, h1, h2⟩
  · simp only [VOp.stay]; rw [if_neg (by omega)]; omega

/-- C85, inserting before the place `p`: the references to the places before it stay, if the capacity suffices. -/
theorem C85_insert [DecidableEq α] [Inhabited α] (grow : ℕ → ℕ → ℕ) (hg : ∀ c n, n ≤ grow c n) (s : Vec α) (W : s.WF) (hl : s.l.length < maxLen) (e : α)
    (j : ℤ) (hj : IsInt j) (p : ℕ) (hp : pyInsertPoint s.l.length j = some p) (i c : ℕ) (hi : s.slots[i]? = some c) :
    ∃ s', (VOp.op (.insert j e)).step .lenient grow s = (.ok (), s') ∧ s'.l = s.l.insertIdx p e ∧
      (s.l.length < s.cap → i < p → ∃ x, s.l[i]? = some x ∧ s'.read c = .ok x) ∧
      (s.l.length = s.cap ∨ p ≤ i → s'.read c = .ub .badDeref) := by
  have habs : (LOp.insert j e).abs s.l = .ok (none, s.l.insertIdx p e) := by
    simp only [LOp.abs]; rw [if_neg (by omega), hp]
  have hpl : place s.l.length j = p ∧ p ≤ s.l.length := by
    unfold pyInsertPoint pyIndex at hp
    unfold place
    split at hp
    · cases hp; split <;> omega
    · split at hp
      · cases hp; split <;> omega
      · split at hp
        · cases hp; split <;> omega
        · cases hp
  have h := on_op (.insert j e) s.l (by omega) hj trivial habs
  have hlt : i < s.l.length := by
    rw [← W.len]
    by_contra hn
    rw [List.getElem?_eq_none (by omega)] at hi; cases hi
  obtain ⟨a, b⟩ := read_after (grow := grow) hg W h hi
  refine ⟨_, step_of_on h, rfl, fun hc hip => ?_, fun hc => b ?_⟩
  · obtain ⟨x, h1, h2⟩ := a (by simp only [VOp.stay, if_pos hc, hpl.1]; exact hip) (by
      rw [List.length_insertIdx_of_le_length hpl.2]; omega)
    rw [List.getElem?_insertIdx_of_lt hip] at h1
    exact ⟨x, h1, h2⟩
  · simp only [VOp.stay, hpl.1]
    split <;> omega

/-- C85, removing the element at the place `p`: the references to the places before it stay, the others are lost. -/
theorem C85_remove [DecidableEq α] [Inhabited α] (grow : ℕ → ℕ → ℕ) (hg : ∀ c n, n ≤ grow c n) (s : Vec α) (W : s.WF) (hl : s.l.length ≤ maxLen)
    (j : ℤ) (hj : IsInt j) (p : ℕ) (hp : pyIndex s.l.length j = some p) (i c : ℕ) (hi : s.slots[i]? = some c) :
    ∃ s', (VOp.op (.remove j)).step .lenient grow s = (.ok (), s') ∧ s'.l = s.l.eraseIdx p ∧
      (i < p → ∃ x, s.l[i]? = some x ∧ s'.read c = .ok x) ∧ (p ≤ i → s'.read c = .ub .badDeref) := by
  have hlt : i < s.l.length := by
    rw [← W.len]
    by_contra hn
    rw [List.getElem?_eq_none (by omega)] at hi; cases hi
  have habs : (LOp.remove j).abs s.l = .ok (s.l[p]?, s.l.eraseIdx p) := by
    simp only [LOp.abs]
    rw [if_neg (by intro h; rw [h] at hlt; simp at hlt), hp]
  have hpl : place s.l.length j = p ∧ p < s.l.length := by
    unfold pyIndex at hp
    unfold place
    split at hp
    · cases hp; split <;> omega
    · split at hp
      · cases hp; split <;> omega
      · cases hp
  have h := on_op (.remove j) s.l hl hj trivial habs
  obtain ⟨a, b⟩ := read_after (grow := grow) hg W h hi
  refine ⟨_, step_of_on h, rfl, fun hip => ?_, fun hc => b ?_⟩
  · obtain ⟨x, h1, h2⟩ := a (by simp only [VOp.stay, hpl.1]; exact hip) (by
      rw [List.length_eraseIdx_of_lt hpl.2]; omega)
    rw [List.getElem?_eraseIdx_of_lt hip] at h1
    exact ⟨x, h1, h2⟩
  · simp only [VOp.stay, hpl.1]; exact hc

/-- C85, changes in place: every reference stays, and refers to its place, not to the element that was there. -/
theorem C85_in_place [DecidableEq α] [Inhabited α] (grow : ℕ → ℕ → ℕ) (hg : ∀ c n, n ≤ grow c n) (s : Vec α) (W : s.WF) (hl : s.l.length ≤ maxLen)
    (i c : ℕ) (hi : s.slots[i]? = some c) :
    (∀ n, IsInt n → ∃ s', (VOp.op (.rotL n)).step .lenient grow s = (.ok (), s') ∧ ∃ x, (rotated s.l n)[i]? = some x ∧ s'.read c = .ok x) ∧
    (∀ n, IsInt n → n ≠ INT_MIN → ∃ s', (VOp.op (.rotR n)).step .lenient grow s = (.ok (), s') ∧
      ∃ x, (rotated s.l (-n))[i]? = some x ∧ s'.read c = .ok x) ∧
    (∃ s', (VOp.op .reverse).step .lenient grow s = (.ok (), s') ∧ ∃ x, s.l.reverse[i]? = some x ∧ s'.read c = .ok x) ∧
    (∀ lt, ∃ s', (VOp.sort lt).step .lenient grow s = (.ok (), s') ∧ s'.l.Perm s.l ∧ ∃ x, s'.l[i]? = some x ∧ s'.read c = .ok x) := by
  have hlt : i < s.l.length := by
    rw [← W.len]
    by_contra hn
    rw [List.getElem?_eq_none (by omega)] at hi; cases hi
  refine ⟨fun n hn => ?_, fun n hn hm => ?_, ?_, fun lt => ?_⟩
  · have h := on_op (.rotL n) s.l hl hn trivial (r := none) (l' := rotated s.l n) rfl
    exact ⟨_, step_of_on h, (read_after (grow := grow) hg W h hi).1 hlt (by simpa [rotated] using hlt)⟩
  · have h := on_op (.rotR n) s.l hl hn (.inl hm) (r := none) (l' := rotated s.l (-n)) rfl
    exact ⟨_, step_of_on h, (read_after (grow := grow) hg W h hi).1 hlt (by simpa [rotated] using hlt)⟩
  · have h := on_op .reverse s.l hl trivial trivial (r := none) (l' := s.l.reverse) rfl
    exact ⟨_, step_of_on h, (read_after (grow := grow) hg W h hi).1 hlt (by simpa using hlt)⟩
  · have h : (VOp.sort lt).on .lenient s.l = (.ok (), s.l.mergeSort (fun a b => !(lt b a))) := rfl
    exact ⟨_, step_of_on h, List.mergeSort_perm .., (read_after (grow := grow) hg W h hi).1 hlt (by simpa using hlt)⟩

/-- C85, `+=` and `extend` with a range or the list itself: references stay exactly while the capacity suffices for all elements. -/
theorem C85_extend [DecidableEq α] [Inhabited α] (grow : ℕ → ℕ → ℕ) (hg : ∀ c n, n ≤ grow c n) (s : Vec α) (W : s.WF) (m : List α)
    (hl : s.l.length + m.length < maxLen - 1) (o : LOp α) (ho : o = .extendList m ∨ o = .extend m ∨ (o = .addSelf ∧ m = s.l)) (i c : ℕ)
    (hi : s.slots[i]? = some c) : ∃ s', (VOp.op o).step .lenient grow s = (.ok (), s') ∧ s'.l = s.l ++ m ∧
      (s.l.length + m.length ≤ s.cap → ∃ x, s.l[i]? = some x ∧ s'.read c = .ok x) ∧ (s.cap < s.l.length + m.length → s'.read c = .ub .badDeref) := by
  have hlt : i < s.l.length := by
    rw [← W.len]
    by_contra hn
    rw [List.getElem?_eq_none (by omega)] at hi; cases hi
  have h : (VOp.op o).on .lenient s.l = (.ok (), s.l ++ m) := by
    rcases ho with rfl | rfl | ⟨rfl, rfl⟩
    · exact on_op (.extendList m) s.l (by omega) (show m.length ≤ maxLen by omega) ⟨by omega, by omega⟩ (r := none) (by
        simp only [LOp.abs]; rw [if_neg (by omega)])
    · exact on_op (.extend m) s.l (by omega) trivial (show _ ≤ _ by omega) (r := none) rfl
    · exact on_op .addSelf s.l (by omega) trivial (show 2 * s.l.length ≠ _ by omega) (r := none) (by
        simp only [LOp.abs]; rw [if_neg (by omega)])
  have hst : (VOp.op o).stay s.cap s.l (s.l ++ m) = if s.l.length + m.length ≤ s.cap then s.l.length else 0 := by
    rcases ho with rfl | rfl | ⟨rfl, rfl⟩ <;> rfl
  obtain ⟨a, b⟩ := read_after (grow := grow) hg W h hi
  rw [hst] at a b
  refine ⟨_, step_of_on h, rfl, fun hc => ?_, fun hc => b ?_⟩
  · obtain ⟨x, h1, h2⟩ := a (by rw [if_pos hc]; exact hlt) (by simp; omega)
    rw [List.getElem?_append_left hlt] at h1
    exact ⟨x, h1, h2⟩
  · rw [if_neg (by omega)]; omega

/-- C85, removing all elements that are equal to one or do not fit a predicate: the elements left move forward, therefore the references to the first
places stay, as many as there are elements left, and read what is there now. -/
theorem C85_filter [DecidableEq α] [Inhabited α] (grow : ℕ → ℕ → ℕ) (hg : ∀ c n, n ≤ grow c n) (s : Vec α) (W : s.WF) (hl : s.l.length ≤ maxLen)
    (o : VOp α) (p : α → Bool) (ho : o = .filter p ∨ ∃ e, o = .op (.removeAll (.val e)) ∧ p = fun x => decide (x ≠ e)) (i c : ℕ)
    (hi : s.slots[i]? = some c) : ∃ s', o.step .lenient grow s = (.ok (), s') ∧ s'.l = s.l.filter p ∧
      (i < (s.l.filter p).length → ∃ x, (s.l.filter p)[i]? = some x ∧ s'.read c = .ok x) ∧ ((s.l.filter p).length ≤ i → s'.read c = .ub .badDeref) := by
  have h : o.on .lenient s.l = (.ok (), s.l.filter p) := by
    rcases ho with rfl | ⟨e, rfl, rfl⟩
    · exact filter_lenient
    · exact on_op (.removeAll (.val e)) s.l hl trivial trivial (r := none) rfl
  have hst : o.stay s.cap s.l (s.l.filter p) = (s.l.filter p).length := by rcases ho with rfl | ⟨e, rfl, -⟩ <;> rfl
  obtain ⟨a, b⟩ := read_after (grow := grow) hg W h hi
  rw [hst] at a b
  exact ⟨_, step_of_on h, rfl, fun hc => a hc hc, b⟩

/-- C85, removing the positions from `a` to `b`: the references to the places before `a` stay, the others are lost, unless nothing is removed. -/
theorem C85_erase [DecidableEq α] [Inhabited α] (grow : ℕ → ℕ → ℕ) (hg : ∀ c n, n ≤ grow c n) (s : Vec α) (W : s.WF) (hl : s.l.length < maxLen)
    (p q : ℕ) (hpq : p ≤ q) (hq : q ≤ s.l.length) (i c : ℕ)
    (hi : s.slots[i]? = some c) : ∃ s', (VOp.op (.erase p q)).step .lenient grow s = (.ok (), s') ∧ s'.l = s.l.take p ++ s.l.drop q ∧
      (i < p ∨ p = q → ∃ x, s.l[i]? = some x ∧ s'.read c = .ok x) ∧ (p ≤ i → p < q → s'.read c = .ub .badDeref) := by
  have hlt : i < s.l.length := by
    rw [← W.len]
    by_contra hn
    rw [List.getElem?_eq_none (by omega)] at hi; cases hi
  have habs : (LOp.erase p q).abs s.l = .ok (none, s.l.take p ++ s.l.drop q) := by
    simp only [LOp.abs]
    rw [if_pos (by omega), max_eq_right (by omega)]
    rfl
  have ht : (LOp.erase p q : LOp α).Typed := by
    have : (maxLen : ℤ) = INT_MAX := rfl
    unfold LOp.Typed IsInt INT_MIN
    omega
  have h := on_op (.erase p q) s.l (by omega) ht ⟨by omega, hl⟩ habs
  obtain ⟨a, b⟩ := read_after (grow := grow) hg W h hi
  have hst : (VOp.op (.erase p q) : VOp α).stay s.cap s.l (s.l.take p ++ s.l.drop q) = if p = q then s.l.length else p := by
    simp only [VOp.stay]
    by_cases e : p = q
    · rw [if_pos e, if_pos (by omega)]
    · rw [if_neg e, if_neg (by omega)]; rfl
  rw [hst] at a b
  refine ⟨_, step_of_on h, rfl, fun hc => ?_, fun h1 h2 => b (by rw [if_neg (by omega)]; exact h1)⟩
  obtain ⟨x, h1, h2⟩ := a (by split <;> omega) (by simp; omega)
  refine ⟨x, ?_, h2⟩
  by_cases e : p = q
  · subst e; rwa [List.take_append_drop] at h1
  · rwa [List.getElem?_append_left (by simp; omega), List.getElem?_take_of_lt (by omega)] at h1

/-- C85, `-=`: the references to the places before the element removed stay, the others are lost. -/
theorem C85_remove_first [DecidableEq α] [Inhabited α] (grow : ℕ → ℕ → ℕ) (hg : ∀ c n, n ≤ grow c n) (s : Vec α) (W : s.WF) (hl : s.l.length ≤ maxLen)
    (e : α) (i c : ℕ) (hi : s.slots[i]? = some c) : ∃ s', (VOp.op (.removeFirst e)).step .lenient grow s = (.ok (), s') ∧ s'.l = s.l.erase e ∧
      (e ∉ s.l.take (i + 1) → ∃ x, s.l[i]? = some x ∧ s'.read c = .ok x) ∧ (e ∈ s.l.take (i + 1) → s'.read c = .ub .badDeref) := by
  have hlt : i < s.l.length := by
    rw [← W.len]
    by_contra hn
    rw [List.getElem?_eq_none (by omega)] at hi; cases hi
  have h := on_op (.removeFirst e) s.l hl trivial trivial (r := none) rfl
  obtain ⟨a, b⟩ := read_after (grow := grow) hg W h hi
  have hst : (VOp.op (.removeFirst e) : VOp α).stay s.cap s.l (s.l.erase e) = s.l.findIdx (fun x => x == e) := rfl
  rw [hst] at a b
  have hmem : e ∈ s.l.take (i + 1) ↔ s.l.findIdx (fun x => x == e) ≤ i := by
    constructor
    · intro h
      obtain ⟨j, hj, he⟩ := List.mem_iff_getElem.1 h
      simp only [List.length_take] at hj
      rw [List.getElem_take] at he
      by_contra hn
      have := List.not_of_lt_findIdx (p := fun x => x == e) (xs := s.l) (i := j) (by omega)
      simp [he] at this
    · intro h
      have hx := List.findIdx_getElem (p := fun x => x == e) (xs := s.l) (w := by omega)
      refine List.mem_iff_getElem.2 ⟨s.l.findIdx (fun x => x == e), by rw [List.length_take]; omega, ?_⟩
      rw [List.getElem_take]
      simpa using hx
  have herase : s.l.erase e = s.l.eraseIdx (s.l.findIdx (fun x => x == e)) :=
    List.erase_eq_eraseIdx_of_idxOf rfl
  refine ⟨_, step_of_on h, rfl, fun hc => ?_, fun hc => b (hmem.1 hc)⟩
  have hlt' : i < s.l.findIdx (fun x => x == e) := by
    by_contra hn
    exact hc (hmem.2 (by omega))
  have hlen : i < (s.l.erase e).length := by
    have := List.findIdx_le_length (p := fun x => x == e) (xs := s.l)
    have := List.length_erase_le (a := e) (l := s.l)
    rw [herase, List.length_eraseIdx]
    split <;> omega
  obtain ⟨x, h1, h2⟩ := a hlt' hlen
  rw [herase, List.getElem?_eraseIdx_of_lt hlt'] at h1
  exact ⟨x, h1, h2⟩

/-- C85, `uniquify` and `*=` build a new buffer: no reference survives them, even if they change nothing. -/
theorem C85_new_buffer [DecidableEq α] [Inhabited α] (grow : ℕ → ℕ → ℕ) (hg : ∀ c n, n ≤ grow c n) (s s' : Vec α) (W : s.WF) (i c : ℕ)
    (hi : s.slots[i]? = some c) : ((VOp.uniquify).step .lenient grow s = (.ok (), s') → s'.read c = .ub .badDeref) ∧
    (∀ n, (VOp.mulAssign n).step .lenient grow s = (.ok (), s') → s'.read c = .ub .badDeref) := by
  have key : ∀ o : VOp α, (∀ l l', o.stay s.cap l l' = 0) → o.step .lenient grow s = (.ok (), s') → s'.read c = .ub .badDeref := by
    intro o ho h
    unfold VOp.step at h
    cases hs : o.on .lenient s.l with
    | mk r l' =>
      rw [hs] at h
      cases r with
      | ok u => cases h; exact (read_after (grow := grow) hg W hs hi).2 (by rw [ho]; omega)
      | throw m => cases h
      | ub u => cases h
      | fuel => cases h
  exact ⟨key _ (fun _ _ => rfl), fun n => key _ (fun _ _ => rfl)⟩

/-- C85: the capacity is not given back, therefore after removing the last element there is room for another one: the references
to the other elements stay. -/
theorem C85_reuse [DecidableEq α] [Inhabited α] (grow : ℕ → ℕ → ℕ) (hg : ∀ c n, n ≤ grow c n) (s : Vec α) (W : s.WF) (hl : s.l.length ≤ maxLen)
    (e : α) (i c : ℕ) (hi : s.slots[i]? = some c) (hlast : i + 1 < s.l.length) :
    ∃ s', VOp.run .lenient grow [.op (.remove (-1)), .op (.append e)] s = some s' ∧ s'.l = s.l.dropLast ++ [e] ∧
      ∃ x, s.l[i]? = some x ∧ s'.read c = .ok x := by
  have hp : pyIndex s.l.length (-1) = some (s.l.length - 1) := by
    unfold pyIndex
    rw [if_neg (by omega), if_pos (by omega)]
    congr 1
  have hj : IsInt (-1) := by decide
  have hpl : place s.l.length (-1) = s.l.length - 1 := by unfold place; rw [if_neg (by omega)]; omega
  have habs : (LOp.remove (-1)).abs s.l = .ok (s.l[s.l.length - 1]?, s.l.dropLast) := by
    simp only [LOp.abs]
    rw [if_neg (by intro h; rw [h] at hlast; simp at hlast), hp]
    simp only
    rw [List.eraseIdx_eq_dropLast (by omega)]
  have h := on_op (.remove (-1)) s.l hl hj trivial habs
  have hst := step_of_on (grow := grow) h
  have W1 : (s.after grow (.op (.remove (-1))) s.l.dropLast).WF := by
    have := step_wf (mem := .lenient) hg W (.op (.remove (-1)))
    rw [hst] at this
    exact this (.inl rfl)
  have hi1 : (s.after grow (.op (.remove (-1))) s.l.dropLast).slots[i]? = some c := by
    simp only [Vec.after, VOp.stay, hpl, List.length_dropLast, Nat.min_self]
    have hlen := W.len
    rw [List.getElem?_append_left (by rw [List.length_take]; omega), List.getElem?_take_of_lt (by omega), hi]
  have hcap : (s.after grow (.op (.remove (-1))) s.l.dropLast).cap = s.cap := by
    have := W.cap
    simp only [Vec.after, VOp.replaces, List.length_dropLast, Bool.false_eq_true, if_false]
    rw [if_pos (by omega)]
  have hll : (s.after grow (.op (.remove (-1))) s.l.dropLast).l = s.l.dropLast := rfl
  obtain ⟨s', h1, h2, h3, -⟩ := C85_append grow hg _ W1 (by rw [hll, List.length_dropLast]; omega) e i c hi1
  refine ⟨s', by rw [VOp.run, hst]; simp only; rw [VOp.run, h1]; rfl, by rw [h2, hll], ?_⟩
  obtain ⟨x, a, b⟩ := h3 (by rw [hcap, hll, List.length_dropLast]; have := W.cap; omega)
  refine ⟨x, ?_, b⟩
  rw [hll, List.getElem?_dropLast, if_pos (by omega)] at a
  exact a

/-- C85: a buffer that has been moved in has room for its elements only (if new vectors are allocated so), and the next element that is
appended makes every reference dangle, however large the capacity was before. -/
theorem C85_moved_in [DecidableEq α] [Inhabited α] (grow : ℕ → ℕ → ℕ) (hg : ∀ c n, n ≤ grow c n) (h0 : ∀ n, grow 0 n = n) (s s1 s' : Vec α) (W : s.WF)
    (o : VOp α) (ho : o = .uniquify ∨ ∃ n, o = .mulAssign n) (hs : o.step .lenient grow s = (.ok (), s1)) (hl : s1.l.length < maxLen) (e : α)
    (h : (VOp.op (.append e)).step .lenient grow s1 = (.ok (), s')) (i c : ℕ) (hi : s1.slots[i]? = some c) : s'.read c = .ub .badDeref := by
  have W1 : s1.WF := by
    have := step_wf (mem := .lenient) hg W o
    rw [hs] at this
    exact this (.inl rfl)
  obtain ⟨s2, h1, -, -, h4⟩ := C85_append grow hg s1 W1 hl e i c hi
  rw [h] at h1
  cases h1
  apply h4
  unfold VOp.step at hs
  cases ho' : o.on .lenient s.l with
  | mk r l' =>
    rw [ho'] at hs
    cases r with
    | ok u =>
      cases hs
      have : o.replaces = true := by
        rcases ho with rfl | ⟨n, rfl⟩ <;> rfl
      simp [Vec.after, this, h0]
    | throw m => cases hs
    | ub u => cases hs
    | fuel => cases hs

/-- The property is false of the code for appending: `auto& x = l[0]; l += 4; x` with `l` = [1, 2, 3] as constructed. -/
theorem C85_not : ∃ s : Vec ℕ, s.WF ∧ s.l = [1, 2, 3] ∧ s.at 0 = .ok 0 ∧ s.read 0 = .ok 1 ∧
    ((VOp.op (.append 4)).step .lenient (fun _ n => 2 * n) s).2.l = [1, 2, 3, 4] ∧
    ((VOp.op (.append 4)).step .lenient (fun _ n => 2 * n) s).2.read 0 = .ub .badDeref :=
  ⟨⟨[1, 2, 3], [0, 1, 2], 3, 3⟩, ⟨rfl, by decide, by decide, by decide⟩, rfl, by decide +kernel, by decide +kernel, by decide +kernel,
    by decide +kernel⟩

/-- A case with spare capacity: the reference to the first element survives an append, an insertion behind it and a removal. -/
example : (VOp.run .lenient (fun _ n => 2 * n) [.op (.append 4), .op (.insert 1 9), .op (.remove (-1)), .op .reverse]
    (⟨[1, 2, 3], [0, 1, 2], 8, 3⟩ : Vec ℕ)).map (fun s => (s.l, s.read 0, s.read 1)) = some ([3, 2, 9, 1], .ok 3, .ub .badDeref) := by
  decide +kernel

example : (⟨[1, 2, 3], [0, 1, 2], 8, 3⟩ : Vec ℕ).WF := ⟨rfl, by decide, by decide, by decide⟩

example : (VOp.run .lenient (fun _ n => n) [.op (.remove (-1)), .op (.append 9)] (⟨[1, 2, 3], [0, 1, 2], 3, 3⟩ : Vec ℕ)).map
    (fun s => (s.l, s.read 0, s.read 2)) = some ([1, 2, 9], .ok 1, .ub .badDeref) := by decide +kernel

example : ((VOp.mulAssign 1).step .lenient (fun _ n => n) (⟨[1, 2], [0, 1], 5, 2⟩ : Vec ℕ)).2.slots = [2, 3] ∧
    ((VOp.op (.append 7)).step .lenient (fun _ n => n) ((VOp.mulAssign 1).step .lenient (fun _ n => n) (⟨[1, 2], [0, 1], 5, 2⟩ : Vec ℕ)).2).2.read 2 =
      .ub .badDeref := ⟨by decide +kernel, by decide +kernel⟩

end Lst
end Pyincpp
