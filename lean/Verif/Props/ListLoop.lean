import Verif.Model.ListLoop
import Verif.Props.ListRef

/-! # C89: loops over a `List` that is changed -/

namespace Pyincpp
namespace Lst

variable {α : Type}

/-- What a loop over the list visits, from the index `i` on: `v` are the elements, the list is then `some s`, or (`none`) an iterator has been lost.
`go` says whether the loop can go on after a body. -/
inductive Walk [BEq α] [Inhabited α] (mem : Mem) (grow : ℕ → ℕ → ℕ) (body : α → List (VOp α)) (go : List (VOp α) → Vec α → ℕ → Prop) :
    Vec α → ℕ → List α → Option (Vec α) → Prop
  | done (s : Vec α) (i : ℕ) : s.l.length ≤ i → Walk mem grow body go s i [] (some s)
  | visit (s s' : Vec α) (i : ℕ) (x : α) (v : List α) (r : Option (Vec α)) : s.l[i]? = some x → VOp.run mem grow (body x) s = some s' →
      s'.l.length ≤ maxLen → go (body x) s i → Walk mem grow body go s' (i + 1) v r → Walk mem grow body go s i (x :: v) r
  | lost (s s' : Vec α) (i : ℕ) (x : α) : s.l[i]? = some x → VOp.run mem grow (body x) s = some s' → ¬ go (body x) s i →
      Walk mem grow body go s i [x] none

/-- The operation loses no place and adds none. -/
def VOp.Still [BEq α] [Inhabited α] (mem : Mem) (o : VOp α) (s : Vec α) : Prop :=
  ∀ l', o.on mem s.l = (.ok (), l') → l'.length = s.l.length ∧ s.l.length ≤ o.stay s.cap s.l l'

/-- So do the operations. -/
def VOp.AllStill [BEq α] [Inhabited α] (mem : Mem) (grow : ℕ → ℕ → ℕ) : List (VOp α) → Vec α → Prop
  | [], _ => True
  | o :: ops, s => o.Still mem s ∧ VOp.AllStill mem grow ops (o.step mem grow s).2

variable [BEq α] [Inhabited α] {mem : Mem} {grow : ℕ → ℕ → ℕ}

theorem run_step (hg : ∀ c n, n ≤ grow c n) {s s' : Vec α} (W : s.WF) {o : VOp α} {ops : List (VOp α)} (hr : VOp.run mem grow (o :: ops) s = some s') :
    (o.step mem grow s).2.WF ∧ VOp.run mem grow ops (o.step mem grow s).2 = some s' := by
  have hw := step_wf (mem := mem) hg W o
  rw [VOp.run] at hr
  cases hs : o.step mem grow s with
  | mk r s1 =>
    rw [hs] at hr hw
    cases r with
    | ok u => exact ⟨hw (.inl rfl), hr⟩
    | throw m => exact ⟨hw (.inr ⟨m, rfl⟩), hr⟩
    | ub u => cases hr
    | fuel => cases hr

theorem run_place (hg : ∀ c n, n ≤ grow c n) : ∀ (ops : List (VOp α)) {s s' : Vec α} (_ : s.WF) (_ : VOp.run mem grow ops s = some s') {i c : ℕ} (_ : s.slots[i]? = some c),
    s'.WF ∧ (VOp.Stays mem grow i ops s → s'.slots[i]? = some c) ∧ (¬ VOp.Stays mem grow i ops s → c ∉ s'.slots)
  | [], s, s', W, hr, i, c, hi => by cases hr; exact ⟨W, fun _ => hi, fun h => absurd trivial h⟩
  | o :: ops, s, s', W, hr, i, c, hi => by
    obtain ⟨W1, hr1⟩ := run_step hg W hr
    by_cases h1 : o.StaysIn mem s i
    · obtain ⟨a, b, c⟩ := run_place hg ops W1 hr1 (step_stays (mem := mem) (grow := grow) o hi h1)
      exact ⟨a, fun h => b h.2, fun h => c fun h2 => h ⟨h1, h2⟩⟩
    · obtain ⟨a, b⟩ := step_loses (mem := mem) (grow := grow) W o hi h1
      obtain ⟨w, n⟩ := run_lost hg ops W1 a b hr1
      exact ⟨w, fun h => absurd h.1 h1, fun _ => n⟩

omit [BEq α] [Inhabited α] in
theorem slot_at {s : Vec α} (W : s.WF) {i : ℕ} {x : α} (h : s.l[i]? = some x) : ∃ c, s.slots[i]? = some c ∧ s.read c = .ok x := by
  have hlt : i < s.l.length := by
    by_contra hn
    rw [List.getElem?_eq_none (by omega)] at h; cases h
  have hs : i < s.slots.length := by rw [W.len]; exact hlt
  obtain ⟨y, h1, h2⟩ := read_place W (List.getElem?_eq_getElem hs)
  rw [h] at h1
  cases h1
  exact ⟨_, List.getElem?_eq_getElem hs, h2⟩

omit [BEq α] [Inhabited α] in
theorem inc_at {s : Vec α} (W : s.WF) {i c : ℕ} (hi : s.slots[i]? = some c) : s.inc c = .ok s.slots[i + 1]? := by
  have hlt : i < s.slots.length := by
    by_contra hn
    rw [List.getElem?_eq_none (by omega)] at hi; cases hi
  rw [List.getElem?_eq_getElem hlt] at hi
  have hc := Option.some.inj hi
  have hf : s.slots.findIdx (· == c) = i := by
    rw [List.findIdx_eq hlt]
    refine ⟨by simp [hc], fun j hj => ?_⟩
    have hne : s.slots[j] ≠ s.slots[i] := fun e => by
      have := (List.Nodup.getElem_inj_iff W.once).1 e
      omega
    simpa [hc] using hne
  rw [Vec.inc, hf, if_pos hlt]

omit [BEq α] [Inhabited α] in
theorem inc_lost {s : Vec α} {c : ℕ} (h : c ∉ s.slots) : s.inc c = .ub .badDeref := by
  have hf : s.slots.findIdx (· == c) = s.slots.length := by
    rw [List.findIdx_eq_length]
    intro x hx
    have : x ≠ c := fun e => h (e ▸ hx)
    simpa using this
  rw [Vec.inc, hf, if_neg (Nat.lt_irrefl _)]

theorem exec_some {ops : List (VOp α)} {s s' : Vec α} (h : VOp.run mem grow ops s = some s') : s.exec mem grow ops = .ok s' := by
  rw [Vec.exec, h]

/-- The loop with iterators. -/
theorem iter_walk (hg : ∀ c n, n ≤ grow c n) {body : α → List (VOp α)} {s : Vec α} {i : ℕ} {v : List α} {r : Option (Vec α)}
    (hw : Walk mem grow body (fun ops s i => VOp.Stays mem grow i ops s) s i v r) : ∀ (u : List α), s.WF →
      match r with
      | some t => ∀ k, v.length < k → Vec.iterLoop mem grow body k s.slots[i]? s u = .ok (u ++ v, t)
      | none => ∀ k, v.length ≤ k → Vec.iterLoop mem grow body k s.slots[i]? s u = .ub .badDeref := by
  induction hw with
  | done s i h =>
    intro u W k hk
    obtain ⟨k, rfl⟩ := Nat.exists_eq_succ_of_ne_zero (by simp at hk; omega : k ≠ 0)
    rw [List.getElem?_eq_none (by rw [W.len]; exact h), Vec.iterLoop, List.append_nil]
  | lost s s' i x hx hr hgo =>
    intro u W k hk
    obtain ⟨k, rfl⟩ := Nat.exists_eq_succ_of_ne_zero (by simp at hk; omega : k ≠ 0)
    obtain ⟨c, hc, hread⟩ := slot_at W hx
    obtain ⟨-, -, hl⟩ := run_place hg _ W hr hc
    rw [hc, Vec.iterLoop, hread, Res.ok_bind, exec_some hr, Res.ok_bind, inc_lost (hl hgo)]
    rfl
  | visit s s' i x v r hx hr _ hgo _ ih =>
    intro u W
    obtain ⟨c, hc, hread⟩ := slot_at W hx
    obtain ⟨W', hst, -⟩ := run_place hg _ W hr hc
    have step : ∀ k, Vec.iterLoop mem grow body (k + 1) s.slots[i]? s u = Vec.iterLoop mem grow body k s'.slots[i + 1]? s' (u ++ [x]) := fun k => by
      rw [hc, Vec.iterLoop, hread, Res.ok_bind, exec_some hr, Res.ok_bind, inc_at W' (hst hgo), Res.ok_bind]
    have I := ih (u ++ [x]) W'
    cases r with
    | some t =>
      intro k hk
      obtain ⟨k, rfl⟩ := Nat.exists_eq_succ_of_ne_zero (by simp at hk; omega : k ≠ 0)
      rw [step, I k (by simp at hk; omega)]
      simp
    | none =>
      intro k hk
      obtain ⟨k, rfl⟩ := Nat.exists_eq_succ_of_ne_zero (by simp at hk; omega : k ≠ 0)
      rw [step, I k (by simp at hk; omega)]

/-- C89, `for (auto it = l.begin(); it != l.end(); ++it)`: the loop visits what the loop over the indices visits, as long as no body loses the place
it is at (C85 says when); the first body that does makes it undefined. -/
theorem C89_iter_partial (mem : Mem) (hg : ∀ c n, n ≤ grow c n) (body : α → List (VOp α)) (s : Vec α) (W : s.WF) (v : List α) :
    (∀ t, Walk mem grow body (fun ops s i => VOp.Stays mem grow i ops s) s 0 v (some t) →
      Returns (fun k => Vec.iterLoop mem grow body k s.begin s []) (v, t)) ∧
    (Walk mem grow body (fun ops s i => VOp.Stays mem grow i ops s) s 0 v none →
      HitsUB (fun k => Vec.iterLoop mem grow body k s.begin s []) .badDeref) :=
  ⟨fun _ h => ⟨v.length + 1, fun k hk => by simpa [Vec.begin] using iter_walk hg h [] W k (by omega)⟩,
    fun h => ⟨v.length, fun k hk => iter_walk hg h [] W k hk⟩⟩

/-! ## Indices -/

theorem run_wf (hg : ∀ c n, n ≤ grow c n) : ∀ (ops : List (VOp α)) {s s' : Vec α} (_ : s.WF) (_ : VOp.run mem grow ops s = some s'), s'.WF
  | [], s, s', W, hr => by cases hr; exact W
  | _ :: ops, _, _, W, hr => run_wf hg ops (run_step hg W hr).1 (run_step hg W hr).2

omit [BEq α] [Inhabited α] in
theorem at_index {s : Vec α} (hl : s.l.length ≤ maxLen) {i c : ℕ} (hi : s.slots[i]? = some c) (hlt : i < s.l.length) : s.at (i : ℤ) = .ok c := by
  have hz := size_eq hl
  have h1 : refAt s.l (i : ℤ) = .ok (i : ℤ) := by
    unfold refAt
    have : ineg (size s.l) = .ok (-(s.l.length : ℤ)) := by
      rw [hz]; unfold ineg ck; rw [if_pos]; unfold IsInt INT_MIN INT_MAX; unfold maxLen at hl; omega
    rw [this, Res.ok_bind, hz]
    unfold checkBounds
    rw [if_neg (by omega)]
    simp
  unfold Vec.at
  rw [h1, Res.ok_bind, if_pos (by omega), Int.toNat_natCast]
  unfold vget
  rw [hi]

/-- The loop over the indices. -/
theorem index_walk (hg : ∀ c n, n ≤ grow c n) {body : α → List (VOp α)} {s : Vec α} {i : ℕ} {v : List α} {r : Option (Vec α)}
    (hw : Walk mem grow body (fun _ _ _ => True) s i v r) : ∀ (u : List α), s.WF → s.l.length ≤ maxLen →
      ∃ t, r = some t ∧ ∀ k, v.length < k → Vec.indexLoop mem grow body k i s u = .ok (u ++ v, t) := by
  induction hw with
  | done s i h =>
    intro u W hl
    refine ⟨s, rfl, fun k hk => ?_⟩
    obtain ⟨k, rfl⟩ := Nat.exists_eq_succ_of_ne_zero (by simp at hk; omega : k ≠ 0)
    rw [Vec.indexLoop, size_eq hl, if_neg (by omega), List.append_nil]
  | lost s s' i x hx hr hgo => exact absurd trivial hgo
  | visit s s' i x v r hx hr hlen _ _ ih =>
    intro u W hl
    obtain ⟨c, hc, hread⟩ := slot_at W hx
    have hlt : i < s.l.length := by
      by_contra hn
      rw [List.getElem?_eq_none (by omega)] at hx; cases hx
    obtain ⟨t, rfl, I⟩ := ih (u ++ [x]) (run_wf hg _ W hr) hlen
    refine ⟨t, rfl, fun k hk => ?_⟩
    obtain ⟨k, rfl⟩ := Nat.exists_eq_succ_of_ne_zero (by simp at hk; omega : k ≠ 0)
    have hadd : iadd (i : ℤ) 1 = .ok ((i + 1 : ℕ) : ℤ) := by
      unfold iadd ck; rw [if_pos]
      · push_cast; rfl
      · unfold IsInt INT_MIN INT_MAX; unfold maxLen at hl; omega
    rw [Vec.indexLoop, size_eq hl, if_pos (by omega), at_index hl hc hlt, Res.ok_bind, hread, Res.ok_bind, exec_some hr, Res.ok_bind, hadd,
      Res.ok_bind, I k (by simp at hk; omega)]
    simp

/-- C89, `for (int i = 0; i < l.size(); i++)`: the loop is defined whatever the bodies change, and visits the elements at the indices 0, 1, … of the
list as it is then, until the index is not less than the size. -/
theorem C89_index (mem : Mem) (hg : ∀ c n, n ≤ grow c n) (body : α → List (VOp α)) (s : Vec α) (W : s.WF) (hl : s.l.length ≤ maxLen)
    (v : List α) (r : Option (Vec α)) (h : Walk mem grow body (fun _ _ _ => True) s 0 v r) :
    ∃ t, r = some t ∧ Returns (fun k => Vec.indexLoop mem grow body k 0 s []) (v, t) := by
  obtain ⟨t, e, I⟩ := index_walk hg h [] W hl
  exact ⟨t, e, v.length + 1, fun k hk => by simpa using I k (by omega)⟩

/-! ## The range-based loop -/

theorem step_still {s : Vec α} (W : s.WF) (o : VOp α) : s.next ≤ (o.step mem grow s).2.next ∧
    ((o.step mem grow s).2.next = s.next → (o.step mem grow s).2.slots <+: s.slots) ∧
    (o.Still mem s ↔ (o.step mem grow s).2.end = s.end) := by
  unfold VOp.step VOp.Still Vec.end
  cases hs : o.on mem s.l with
  | mk r l' =>
    cases r with
    | ok u =>
      have e : ∀ l'', ((Res.ok u, l') : Res Unit × List α) = (.ok (), l'') ↔ l'' = l' := fun l'' => by simp [eq_comm]
      simp only [e, forall_eq, Vec.after, Prod.mk.injEq]
      have hlen := W.len
      refine ⟨by omega, fun h => ?_, ?_⟩
      · have : l'.length - (s.slots.take (min (o.stay s.cap s.l l') l'.length)).length = 0 := by omega
        rw [this]
        simp [List.take_prefix]
      · constructor
        · rintro ⟨h1, h2⟩
          rw [List.take_of_length_le (by omega)]
          have : l'.length - s.slots.length = 0 := by omega
          rw [this]; simp
        · rintro ⟨h1, h2⟩
          have h0 : l'.length - (s.slots.take (min (o.stay s.cap s.l l') l'.length)).length = 0 := by omega
          rw [h0] at h1
          simp only [List.range'_zero, List.append_nil] at h1
          have := congrArg List.length h1
          rw [List.length_take] at this h0
          omega
    | throw m => simp
    | ub m => simp
    | fuel => simp

theorem run_still (hg : ∀ c n, n ≤ grow c n) : ∀ (ops : List (VOp α)) {s s' : Vec α} (_ : s.WF) (_ : VOp.run mem grow ops s = some s'),
    s.next ≤ s'.next ∧ (s'.next = s.next → s'.slots <+: s.slots) ∧ (VOp.AllStill mem grow ops s ↔ s'.end = s.end)
  | [], s, s', _, hr => by cases hr; exact ⟨le_rfl, fun _ => List.prefix_rfl, by simp [VOp.AllStill]⟩
  | o :: ops, s, s', W, hr => by
    obtain ⟨W1, hr1⟩ := run_step hg W hr
    obtain ⟨a, b, c⟩ := step_still (mem := mem) (grow := grow) W o
    obtain ⟨a', b', c'⟩ := run_still hg ops W1 hr1
    refine ⟨a.trans a', fun h => (b' (by omega)).trans (b (by omega)), ?_⟩
    rw [VOp.AllStill, c, c']
    constructor
    · rintro ⟨h1, h2⟩; rw [h2, h1]
    · intro h
      unfold Vec.end at h ⊢
      simp only [Prod.mk.injEq] at h ⊢
      have h1 := b (by omega)
      have h2 := b' (by omega)
      rw [h.1] at h2
      have h3 := h1.eq_of_length_le h2.length_le
      exact ⟨⟨h3, by omega⟩, ⟨by rw [h.1, h3], by omega⟩⟩

theorem stays_of_still {i : ℕ} : ∀ (ops : List (VOp α)) {s : Vec α}, i < s.l.length → s.WF → (∀ c n, n ≤ grow c n) → (∃ s', VOp.run mem grow ops s = some s') →
    VOp.AllStill mem grow ops s → VOp.Stays mem grow i ops s
  | [], _, _, _, _, _, _ => trivial
  | o :: ops, s, hi, W, hg, ⟨s', hr⟩, h => by
    obtain ⟨W1, hr1⟩ := run_step hg W hr
    have hl : (o.step mem grow s).2.l.length = s.l.length := by
      rw [← W1.len, ← W.len]
      exact congrArg (fun e => e.1.length) ((step_still (mem := mem) (grow := grow) W o).2.2.1 h.1)
    refine ⟨fun l' hl' => ?_, stays_of_still ops (by omega) W1 hg ⟨s', hr1⟩ h.2⟩
    have := h.1 l' hl'
    omega

theorem range_walk (hg : ∀ c n, n ≤ grow c n) {body : α → List (VOp α)} {s : Vec α} {i : ℕ} {v : List α} {r : Option (Vec α)}
    (hw : Walk mem grow body (fun ops s _ => VOp.AllStill mem grow ops s) s i v r) : ∀ (u : List α), s.WF →
      match r with
      | some t => ∀ k, v.length < k → Vec.rangeLoop mem grow body s.end k s.slots[i]? s u = .ok (u ++ v, t)
      | none => ∀ k, v.length < k → Vec.rangeLoop mem grow body s.end k s.slots[i]? s u = .ub .badDeref := by
  induction hw with
  | done s i h =>
    intro u W k hk
    obtain ⟨k, rfl⟩ := Nat.exists_eq_succ_of_ne_zero (by simp at hk; omega : k ≠ 0)
    rw [List.getElem?_eq_none (by rw [W.len]; exact h), Vec.rangeLoop, if_neg (by simp), List.append_nil]
  | lost s s' i x hx hr hgo =>
    intro u W k hk
    obtain ⟨k, rfl⟩ : ∃ j, k = j + 2 := ⟨k - 2, by simp at hk; omega⟩
    obtain ⟨c, hc, hread⟩ := slot_at W hx
    obtain ⟨W', hst, hl⟩ := run_place hg _ W hr hc
    have hne : s'.end ≠ s.end := fun h => hgo ((run_still hg _ W hr).2.2.2 h)
    rw [hc, Vec.rangeLoop, if_neg (by simp)]
    rw [hread, Res.ok_bind, exec_some hr, Res.ok_bind]
    by_cases h : VOp.Stays mem grow i (body x) s
    · rw [inc_at W' (hst h), Res.ok_bind]
      generalize s'.slots[i + 1]? = it
      unfold Vec.rangeLoop
      rw [if_pos hne]
    · rw [inc_lost (hl h)]; rfl
  | visit s s' i x v r hx hr _ hgo _ ih =>
    intro u W
    obtain ⟨c, hc, hread⟩ := slot_at W hx
    have hlt : i < s.l.length := by
      by_contra hn
      rw [List.getElem?_eq_none (by omega)] at hx; cases hx
    obtain ⟨W', hst, -⟩ := run_place hg _ W hr hc
    have hstay := hst (stays_of_still _ hlt W hg ⟨s', hr⟩ hgo)
    have he : s'.end = s.end := (run_still hg _ W hr).2.2.1 hgo
    have step : ∀ k, Vec.rangeLoop mem grow body s.end (k + 1) s.slots[i]? s u = Vec.rangeLoop mem grow body s'.end k s'.slots[i + 1]? s' (u ++ [x]) := fun k => by
      rw [hc, Vec.rangeLoop, if_neg (by simp)]
      rw [hread, Res.ok_bind, exec_some hr, Res.ok_bind, inc_at W' hstay, Res.ok_bind, he]
    have I := ih (u ++ [x]) W'
    cases r with
    | some t =>
      intro k hk
      obtain ⟨k, rfl⟩ := Nat.exists_eq_succ_of_ne_zero (by simp at hk; omega : k ≠ 0)
      rw [step, I k (by simp at hk; omega)]
      simp
    | none =>
      intro k hk
      obtain ⟨k, rfl⟩ := Nat.exists_eq_succ_of_ne_zero (by simp at hk; omega : k ≠ 0)
      rw [step, I k (by simp at hk; omega)]

/-- C89, `for (const auto& x : l)`: the loop visits what the loop over the indices visits, as long as the bodies neither lose nor add a place; the first one
that does makes it undefined. -/
theorem C89_range_partial (mem : Mem) (hg : ∀ c n, n ≤ grow c n) (body : α → List (VOp α)) (s : Vec α) (W : s.WF) (v : List α) :
    (∀ t, Walk mem grow body (fun ops s _ => VOp.AllStill mem grow ops s) s 0 v (some t) →
      Returns (fun k => Vec.rangeLoop mem grow body s.end k s.begin s []) (v, t)) ∧
    (Walk mem grow body (fun ops s _ => VOp.AllStill mem grow ops s) s 0 v none →
      HitsUB (fun k => Vec.rangeLoop mem grow body s.end k s.begin s []) .badDeref) :=
  ⟨fun _ h => ⟨v.length + 1, fun k hk => by simpa [Vec.begin] using range_walk hg h [] W k (by omega)⟩,
    fun h => ⟨v.length + 1, fun k hk => range_walk hg h [] W k (by omega)⟩⟩

/-! ## What this means -/

theorem append_on {α : Type} [DecidableEq α] [Inhabited α] {s : Vec α} (hl : s.l.length < maxLen) (e : α) :
    (VOp.op (.append e)).on .lenient s.l = (.ok (), s.l ++ [e]) := by
  have habs : (LOp.append e).abs s.l = .ok (none, s.l ++ [e]) := by simp only [LOp.abs]; rw [if_neg (by omega)]
  exact on_op (.append e) s.l (by omega) trivial trivial habs

theorem run_one {o : VOp α} {s : Vec α} {l' : List α} (h : o.on mem s.l = (.ok (), l')) : VOp.run mem grow [o] s = some (s.after grow o l') := by
  rw [VOp.run, step_of_on h]; rfl

/-- With iterators, appending in every body: the loop goes on until the capacity is used up. -/
theorem append_walk {α : Type} [DecidableEq α] [Inhabited α] (hg : ∀ c n, n ≤ grow c n) (e : α) : ∀ (n : ℕ) (s : Vec α) (i : ℕ), s.WF → s.cap < maxLen →
    i < s.l.length → s.cap - s.l.length = n → ∃ v, v.length = n + 1 ∧
      Walk .lenient grow (fun _ => [.op (.append e)]) (fun ops s i => VOp.Stays .lenient grow i ops s) s i v none := by
  intro n
  induction n with
  | zero =>
    intro s i W hc hi hn
    have := W.cap
    have hon := append_on (s := s) (by omega) e
    refine ⟨[s.l[i]], rfl, .lost _ _ _ _ (List.getElem?_eq_getElem hi) (run_one hon) fun h => ?_⟩
    have := (h.1 _ hon).1
    simp only [VOp.stay] at this
    rw [if_neg (by omega)] at this
    omega
  | succ n ih =>
    intro s i W hc hi hn
    have hon := append_on (s := s) (by omega) e
    have hW := run_wf hg _ W (run_one hon)
    have hcap : (s.after grow (.op (.append e)) (s.l ++ [e])).cap = s.cap := by
      simp only [Vec.after, VOp.replaces]
      rw [if_pos (show (s.l ++ [e]).length ≤ s.cap by simp; omega)]
      rfl
    have hlen : (s.after grow (.op (.append e)) (s.l ++ [e])).l.length = s.l.length + 1 := by simp [Vec.after]
    obtain ⟨v, h1, h2⟩ := ih _ (i + 1) hW (by omega) (by omega) (by omega)
    refine ⟨s.l[i] :: v, by simp [h1], .visit _ _ _ _ _ _ (List.getElem?_eq_getElem hi) (run_one hon) (by omega) ⟨fun l' hl' => ?_, trivial⟩ h2⟩
    rw [hon] at hl'
    cases hl'
    simp only [VOp.stay, List.length_append]
    rw [if_pos (by omega)]
    exact ⟨hi, by omega⟩

/-- C89, the trap: a loop over a list that is not empty, whose body appends an element, is undefined, with iterators and range-based (the latter even
if the capacity suffices). -/
theorem C89_append_not {α : Type} [DecidableEq α] [Inhabited α] (hg : ∀ c n, n ≤ grow c n) (s : Vec α) (W : s.WF) (hs : s.l ≠ []) (e : α) :
    (s.cap < maxLen → HitsUB (fun k => Vec.iterLoop .lenient grow (fun _ => [.op (.append e)]) k s.begin s []) .badDeref) ∧
    (s.l.length < maxLen → HitsUB (fun k => Vec.rangeLoop .lenient grow (fun _ => [.op (.append e)]) s.end k s.begin s []) .badDeref) := by
  have h0 : 0 < s.l.length := List.length_pos_iff.2 hs
  refine ⟨fun hc => ?_, fun hl => ?_⟩
  · obtain ⟨v, -, h⟩ := append_walk hg e _ s 0 W hc h0 rfl
    exact (C89_iter_partial .lenient hg _ s W v).2 h
  · have hon := append_on (s := s) hl e
    refine (C89_range_partial .lenient hg _ s W [s.l[0]]).2 (.lost _ _ _ _ (List.getElem?_eq_getElem h0) (run_one hon) fun h => ?_)
    have := (h.1 _ hon).1
    simp at this

/-- Operations that only assign to elements or exchange them. -/
def InPlace (l : List α) : VOp α → Prop
  | .op (.assign i _) => IsInt i
  | .op .reverse => True
  | .op (.rotL n) => IsInt n
  | .op (.rotR n) => IsInt n ∧ n ≠ INT_MIN
  | .sort _ => True
  | _ => l = [] ∧ False

theorem inPlace_still {α : Type} [DecidableEq α] [Inhabited α] {s : Vec α} (W : s.WF) (hl : s.l.length ≤ maxLen) {o : VOp α} (h : InPlace s.l o) :
    o.Still .lenient s ∧ (o.step .lenient grow s).2.WF ∧ (o.step .lenient grow s).2.l.length = s.l.length ∧
      ((o.step .lenient grow s).1 = .ok () ∨ ∃ m, (o.step .lenient grow s).1 = .throw m) := by
  have fin : ∀ l', o.on .lenient s.l = (.ok (), l') → l'.length = s.l.length → s.l.length ≤ o.stay s.cap s.l l' →
      o.Still .lenient s ∧ (o.step .lenient grow s).2.WF ∧ (o.step .lenient grow s).2.l.length = s.l.length ∧
      ((o.step .lenient grow s).1 = .ok () ∨ ∃ m, (o.step .lenient grow s).1 = .throw m) := fun l' h1 h2 h3 => by
    have hst : o.Still .lenient s := fun l'' e => by rw [h1] at e; cases e; exact ⟨h2, h3⟩
    have he := (step_still (mem := .lenient) (grow := grow) W o).2.2.1 hst
    rw [step_of_on h1] at he ⊢
    unfold Vec.end at he
    simp only [Prod.mk.injEq] at he
    refine ⟨hst, ⟨?_, ?_, ?_, ?_⟩, h2, .inl rfl⟩
    · rw [he.1, W.len]; exact h2.symm
    · rw [he.1]; exact W.once
    · rw [he.1, he.2]; exact W.below
    · have := W.cap
      simp only [Vec.after]
      rw [if_neg (by cases o <;> simp [VOp.replaces] <;> exact h.2.elim)]
      rw [if_pos (by omega)]; omega
  have op : ∀ lo : LOp α, o = .op lo → lo.Typed → lo.Fair s.l → (∀ r l', lo.abs s.l = .ok (r, l') → l'.length = s.l.length ∧ s.l.length ≤ o.stay s.cap s.l l') →
      o.Still .lenient s ∧ (o.step .lenient grow s).2.WF ∧ (o.step .lenient grow s).2.l.length = s.l.length ∧
      ((o.step .lenient grow s).1 = .ok () ∨ ∃ m, (o.step .lenient grow s).1 = .throw m) := fun lo e ht hf hlen => by
    subst e
    cases ha : lo.abs s.l with
    | ok rl =>
      obtain ⟨r, l'⟩ := rl
      obtain ⟨h1, h2⟩ := hlen r l' ha
      exact fin l' (on_op lo s.l hl ht hf ha) h1 h2
    | error m =>
      have hstep := list_step lo s.l hl ht hf
      rw [ha] at hstep
      have hon : (VOp.op lo).on .lenient s.l = (.throw m, s.l) := by
        simp only [VOp.on, NoEff.bind_run, hstep]
      have hst : (VOp.op lo).step .lenient grow s = (.throw m, s) := by rw [VOp.step, hon]
      rw [hst]
      exact ⟨fun l' e => (by rw [hon] at e; cases e), W, rfl, .inr ⟨m, rfl⟩⟩
  cases o with
  | op lo =>
    cases lo with
    | assign i e =>
      refine op (.assign i e) rfl h trivial fun r l' ha => ?_
      simp only [LOp.abs] at ha
      split at ha <;> cases ha
      simp [VOp.stay]
    | reverse => exact op .reverse rfl trivial trivial fun r l' ha => by cases ha; simp [VOp.stay]
    | rotL n => exact op (.rotL n) rfl h trivial fun r l' ha => by cases ha; simp [VOp.stay, rotated]
    | rotR n => exact op (.rotR n) rfl h.1 (.inl h.2) fun r l' ha => by cases ha; simp [VOp.stay, rotated]
    | _ => exact h.2.elim
  | sort lt => exact fin _ rfl (by simp) le_rfl
  | _ => exact h.2.elim

theorem inPlace_run {α : Type} [DecidableEq α] [Inhabited α] : ∀ (ops : List (VOp α)) {s : Vec α} (_ : s.WF) (_ : s.l.length ≤ maxLen)
    (_ : ∀ o ∈ ops, ∀ l, InPlace l o), ∃ s', VOp.run .lenient grow ops s = some s' ∧ s'.WF ∧ s'.l.length = s.l.length ∧ VOp.AllStill .lenient grow ops s
  | [], s, W, _, _ => ⟨s, rfl, W, rfl, trivial⟩
  | o :: ops, s, W, hl, h => by
    obtain ⟨h1, h2, h3, h4⟩ := inPlace_still (grow := grow) W hl (h o List.mem_cons_self s.l)
    obtain ⟨s', r, W', l', st⟩ := inPlace_run ops h2 (by omega) fun o ho => h o (List.mem_cons_of_mem _ ho)
    refine ⟨s', ?_, W', by omega, h1, st⟩
    rw [VOp.run]
    cases hs : o.step .lenient grow s with
    | mk q s1 =>
      rw [hs] at r h4
      rcases h4 with h4 | ⟨m, h4⟩ <;> simp only at h4 <;> subst h4 <;> exact r

/-- C89: a range-based loop whose bodies only assign to elements or exchange them is defined and makes one round for each element. -/
theorem C89_in_place {α : Type} [DecidableEq α] [Inhabited α] (hg : ∀ c n, n ≤ grow c n) (body : α → List (VOp α)) (s : Vec α) (W : s.WF)
    (hl : s.l.length ≤ maxLen) (hb : ∀ x, ∀ o ∈ body x, ∀ l, InPlace l o) :
    ∃ v t, v.length = s.l.length ∧ t.l.length = s.l.length ∧ Walk .lenient grow body (fun ops s _ => VOp.AllStill .lenient grow ops s) s 0 v (some t) ∧
      Returns (fun k => Vec.rangeLoop .lenient grow body s.end k s.begin s []) (v, t) := by
  have walk : ∀ (n : ℕ) (s : Vec α) (i : ℕ), s.WF → s.l.length ≤ maxLen → s.l.length - i = n → i ≤ s.l.length → ∃ v t, v.length = n ∧ t.l.length = s.l.length ∧
      Walk .lenient grow body (fun ops s _ => VOp.AllStill .lenient grow ops s) s i v (some t) := by
    intro n
    induction n with
    | zero => intro s i W hl hn hi; exact ⟨[], s, rfl, rfl, .done s i (by omega)⟩
    | succ n ih =>
      intro s i W hl hn hi
      have hlt : i < s.l.length := by omega
      obtain ⟨s', r, W', l', st⟩ := inPlace_run (grow := grow) (body s.l[i]) W hl (hb _)
      obtain ⟨v, t, h1, h2, h3⟩ := ih s' (i + 1) W' (by omega) (by omega) (by omega)
      exact ⟨s.l[i] :: v, t, by simp [h1], by omega, .visit _ _ _ _ _ _ (List.getElem?_eq_getElem hlt) r (by omega) st h3⟩
  obtain ⟨v, t, h1, h2, h3⟩ := walk _ s 0 W hl rfl (Nat.zero_le _)
  exact ⟨v, t, by omega, h2, h3, (C89_range_partial .lenient hg body s W v).1 t h3⟩

/-- The list [1, 2, 3] with room for one more element. -/
def three : Vec ℕ := ⟨[1, 2, 3], [0, 1, 2], 4, 3⟩

theorem three_wf : three.WF := ⟨rfl, by decide, by decide, by decide⟩

example : three.l ≠ [] ∧ three.cap < maxLen ∧ three.l.length < maxLen := by decide
example : ∀ x : ℕ, ∀ o ∈ [VOp.op .reverse, .op (.assign 0 x)], ∀ l, InPlace l o := by
  intro x o h l
  rcases List.mem_cons.1 h with rfl | h
  · trivial
  · rw [List.mem_singleton.1 h]; show IsInt 0; decide
/-- Reversing in every round: 1, then 2, then 3 again (the list has been reversed twice). -/
example : (Prod.fst <$> Vec.rangeLoop .lenient (fun _ n => n) (fun _ => [VOp.op .reverse]) three.end 9 three.begin three []) = .ok [1, 2, 3] := by decide +kernel
/-- Removing the last element while at the first: with iterators the loop is defined, range-based it is not. -/
example : (Prod.fst <$> Vec.iterLoop .lenient (fun _ n => n) (fun x => if x = 1 then [VOp.op (.remove 2)] else []) 9 three.begin three []) = .ok [1, 2] := by decide +kernel
example : (Prod.fst <$> Vec.rangeLoop .lenient (fun _ n => n) (fun x => if x = 1 then [VOp.op (.remove 2)] else []) three.end 9 three.begin three []) = .ub .badDeref := by
  decide +kernel

end Lst
end Pyincpp
