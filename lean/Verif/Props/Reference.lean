import Verif.Model.Reference
import Verif.Props.Dict

/-! # C83: references into a `Dict` -/

namespace Pyincpp
namespace PDict

variable {K V : Type} [LinearOrder K]

/-- The dictionary is in order and its nodes have different numbers, all used. -/
structure Nodes.WF (s : Nodes K V) : Prop where
  inc : Increasing kLt s.d
  len : s.d.length ≤ maxLen
  below : ∀ k c v, (k, c, v) ∈ s.d → c < s.next
  once : ∀ k k' c v v', (k, c, v) ∈ s.d → (k', c, v') ∈ s.d → k = k'

/-- The operation erases the node of the key `k`. -/
def ROp.Drops (s : Nodes K V) (k : K) : ROp K V → Prop
  | .remove k' => k' = k
  | .pop => s.d.head?.map Prod.fst = some k
  | .clear => True
  | _ => False

/-- `extend` does not go beyond `INT_MAX` (which it does not check). -/
def ROp.Fits (s : Nodes K V) : ROp K V → Prop
  | .extend xs => s.d.length + xs.length ≤ maxLen
  | _ => True

/-- No operation of the sequence erases the node of `k`. -/
def ROp.Keeps (k : K) : List (ROp K V) → Nodes K V → Prop
  | [], _ => True
  | op :: ops, s => op.Fits s ∧ ¬ op.Drops s k ∧ ROp.Keeps k ops (op.step ltOf s).2

def ROp.AllFit : List (ROp K V) → Nodes K V → Prop
  | [], _ => True
  | op :: ops, s => op.Fits s ∧ ROp.AllFit ops (op.step ltOf s).2

/-! ## One step -/

theorem exists_map {d : List (K × V)} (hd : Increasing kLt d) : ∃ m : FMap K V, Holds d m := by
  have h := (holds_insertAll d (d := []) (m := ∅) List.Pairwise.nil (fun k v => by simp)).2
  rw [Tree.insertAll_increasing kLt_strictWeak d [] (by simpa using hd)] at h
  exact ⟨_, by simpa using h⟩

theorem addNew_keep {m : FMap K V} {k : K} {v : V} (h : m.lookup k = some v) (p : K × V) :
    (m.addNew p).lookup k = some v := by
  unfold FMap.addNew
  split
  · exact h
  · rename_i hp
    have hne : k ≠ p.1 := by
      rintro rfl
      exact hp (Finmap.lookup_isSome.1 (by rw [h]; rfl))
    rw [Finmap.lookup_insert_of_ne _ hne, h]

theorem addNew_origin {m : FMap K V} {k : K} {v : V} {p : K × V} (h : (m.addNew p).lookup k = some v) :
    m.lookup k = some v ∨ (k, v) = p := by
  unfold FMap.addNew at h
  split at h
  · exact .inl h
  · by_cases hk : k = p.1
    · subst hk
      rw [Finmap.lookup_insert] at h
      right; cases h; rfl
    · rw [Finmap.lookup_insert_of_ne _ hk] at h
      exact .inl h

theorem foldl_keep {k : K} {v : V} : ∀ (xs : List (K × V)) {m : FMap K V}, m.lookup k = some v →
    (xs.foldl FMap.addNew m).lookup k = some v
  | [], _, h => h
  | p :: xs, _, h => foldl_keep xs (addNew_keep h p)

theorem foldl_origin {k : K} {v : V} : ∀ (xs : List (K × V)) {m : FMap K V}, (xs.foldl FMap.addNew m).lookup k = some v →
    m.lookup k = some v ∨ (k, v) ∈ xs
  | [], _, h => .inl h
  | p :: xs, m, h => by
    rcases foldl_origin xs (m := m.addNew p) h with h | h
    · rcases addNew_origin h with h | h
      · exact .inl h
      · exact .inr (by rw [h]; exact List.mem_cons_self)
    · exact .inr (List.mem_cons_of_mem _ h)

omit [LinearOrder K] in
theorem number_length : ∀ (n : ℕ) (xs : List (K × V)), (number n xs).length = xs.length
  | _, [] => rfl
  | n, (k, v) :: xs => by simp [number, number_length (n + 1) xs]

omit [LinearOrder K] in
theorem mem_number {k : K} {c : ℕ} {v : V} : ∀ (xs : List (K × V)) (n : ℕ), (k, c, v) ∈ number n xs → n ≤ c ∧ c < n + xs.length
  | [], _, h => by simp [number] at h
  | (k', v') :: xs, n, h => by
    simp only [number, List.mem_cons, List.length_cons] at h ⊢
    rcases h with h | h
    · cases h; omega
    · have := mem_number xs (n + 1) h; omega

omit [LinearOrder K] in
theorem number_once {k k' : K} {c : ℕ} {v v' : V} : ∀ (xs : List (K × V)) (n : ℕ), (k, c, v) ∈ number n xs →
    (k', c, v') ∈ number n xs → k = k'
  | [], _, h, _ => by simp [number] at h
  | (a, b) :: xs, n, h, h' => by
    simp only [number, List.mem_cons] at h h'
    rcases h with h | h <;> rcases h' with h' | h'
    · cases h; cases h'; rfl
    · cases h; have := mem_number xs _ h'; omega
    · cases h'; have := mem_number xs _ h; omega
    · exact number_once xs (n + 1) h h'

theorem foldl_card : ∀ (xs : List (K × V)) (m : FMap K V), (xs.foldl FMap.addNew m).keys.card ≤ m.keys.card + xs.length
  | [], _ => by simp
  | p :: xs, m => by
    have h1 := foldl_card xs (m.addNew p)
    have h2 : (m.addNew p).keys.card ≤ m.keys.card + 1 := by
      unfold FMap.addNew
      split
      · omega
      · have : (Finmap.insert p.1 p.2 m).keys = insert p.1 m.keys := by
          ext a; simp [Finmap.mem_keys, Finmap.mem_insert]
        rw [this]
        exact Finset.card_insert_le _ _
    simp only [List.foldl_cons, List.length_cons]
    omega

/-- The value in the node `c` of the key `k` after an operation that does not erase it. -/
def ROp.after (k : K) (c : ℕ) (v : V) : ROp K V → V
  | .assign k' w => if k' = k then w else v
  | .write c' w => if c' = c then w else v
  | _ => v

theorem step_of {s : Nodes K V} (W : s.WF) {op : ROp K V} {q : MOp K (ℕ × V)} {m : FMap K (ℕ × V)} (hm : Holds s.d m)
    (h : op.mop ltOf s = .ok q) (hf : q.Fair m) :
    match q.abs m with
    | .ok (_, m') => ∃ d', op.step ltOf s = (.ok (), ⟨d', s.next + op.uses⟩) ∧ Increasing kLt d' ∧ d'.length ≤ maxLen ∧ Holds d' m'
    | .error e => op.step ltOf s = (.throw e, ⟨s.d, s.next + op.uses⟩) := by
  have H := dict_step q s.d m W.inc W.len hm hf
  unfold ROp.step
  rw [h]
  cases hq : q.abs m with
  | ok rm =>
    obtain ⟨r, m'⟩ := rm
    rw [hq] at H
    obtain ⟨d', e, h1, h2, h3⟩ := H
    exact ⟨d', by simp only [e], h1, h2, h3⟩
  | error e =>
    rw [hq] at H
    simp only [H]

/-- What holds after a step. -/
structure StepOk (op : ROp K V) (s s' : Nodes K V) : Prop where
  wf : s'.WF
  mono : s.next ≤ s'.next
  keep : ∀ k c v, (k, c, v) ∈ s.d → ¬ op.Drops s k → (k, c, op.after k c v) ∈ s'.d
  old : ∀ k c v, (k, c, v) ∈ s'.d → c < s.next → ∃ w, (k, c, w) ∈ s.d
  drop : ∀ k c v, (k, c, v) ∈ s.d → op.Drops s k → ∀ k' v', (k', c, v') ∉ s'.d

theorem StepOk.same {op : ROp K V} {s : Nodes K V} (W : s.WF) (n : ℕ) (hk : ∀ k c v, (k, c, v) ∈ s.d → op.after k c v = v)
    (hd : ∀ k c v, (k, c, v) ∈ s.d → ¬ op.Drops s k) : StepOk op s ⟨s.d, s.next + n⟩ where
  wf := ⟨W.inc, W.len, fun k c v h => by have := W.below k c v h; show c < s.next + n; omega, W.once⟩
  mono := Nat.le_add_right _ _
  keep k c v h _ := by rw [hk k c v h]; exact h
  old k c v h _ := ⟨v, h⟩
  drop k c v h hdr := absurd hdr (hd k c v h)

/-- Writing `w` into the node of the key `k`. -/
theorem StepOk.write {op : ROp K V} {s : Nodes K V} (W : s.WF) {m : FMap K (ℕ × V)} (hm : Holds s.d m) {k : K} {c : ℕ} {v w : V}
    (hk : (k, c, v) ∈ s.d) {d' : List (K × ℕ × V)} (h1 : Increasing kLt d') (h2 : d'.length ≤ maxLen)
    (h3 : Holds d' (m.insert k (c, w))) (ha : op.after k c v = w)
    (hb : ∀ k' c' v', (k', c', v') ∈ s.d → k' ≠ k → op.after k' c' v' = v') (hd : ∀ k, ¬ op.Drops s k) :
    StepOk op s ⟨d', s.next + 0⟩ := by
  have back : ∀ k' c' v', (k', c', v') ∈ d' → ∃ x, (k', c', x) ∈ s.d := by
    intro k' c' v' h
    rw [h3] at h
    by_cases hkk : k' = k
    · subst hkk
      rw [Finmap.lookup_insert] at h
      cases h
      exact ⟨v, hk⟩
    · rw [Finmap.lookup_insert_of_ne _ hkk] at h
      exact ⟨v', (hm _ _).2 h⟩
  refine ⟨⟨h1, h2, ?_, ?_⟩, Nat.le_refl _, ?_, ?_, fun _ _ _ _ h => absurd h (hd _)⟩
  · intro k' c' v' h
    obtain ⟨x, hx⟩ := back _ _ _ h
    exact W.below _ _ _ hx
  · intro a b c' x y hx hy
    obtain ⟨x', hx'⟩ := back _ _ _ hx
    obtain ⟨y', hy'⟩ := back _ _ _ hy
    exact W.once _ _ _ _ _ hx' hy'
  · intro k' c' v' h _
    show _ ∈ d'
    rw [h3]
    by_cases hkk : k' = k
    · subst hkk
      have := key_unique W.inc h hk
      cases this
      rw [ha, Finmap.lookup_insert]
    · rw [hb _ _ _ h hkk, Finmap.lookup_insert_of_ne _ hkk]
      exact (hm _ _).1 h
  · intro k' c' v' h _
    exact back _ _ _ h

/-- Inserting new nodes. -/
theorem StepOk.insert {op : ROp K V} {s : Nodes K V} (W : s.WF) {m m' : FMap K (ℕ × V)} (hm : Holds s.d m) {d' : List (K × ℕ × V)}
    (h1 : Increasing kLt d') (h2 : d'.length ≤ maxLen) (h3 : Holds d' m') (xs : List (K × V)) (hu : op.uses = xs.length)
    (hk : ∀ k p, m.lookup k = some p → m'.lookup k = some p)
    (ho : ∀ k p, m'.lookup k = some p → m.lookup k = some p ∨ (k, p) ∈ number s.next xs)
    (ha : ∀ k c v, op.after k c v = v) (hd : ∀ k, ¬ op.Drops s k) : StepOk op s ⟨d', s.next + op.uses⟩ := by
  have back : ∀ k c v, (k, c, v) ∈ d' → (k, c, v) ∈ s.d ∨ (k, c, v) ∈ number s.next xs := by
    intro k c v h
    rw [h3] at h
    rcases ho _ _ h with h | h
    · exact .inl ((hm _ _).2 h)
    · exact .inr h
  refine ⟨⟨h1, h2, ?_, ?_⟩, Nat.le_add_right _ _, ?_, ?_, fun _ _ _ _ h => absurd h (hd _)⟩
  · intro k c v h
    show c < s.next + op.uses
    rcases back _ _ _ h with h | h
    · have := W.below _ _ _ h; omega
    · have := mem_number _ _ h; omega
  · intro a b c x y hx hy
    rcases back _ _ _ hx with hx | hx <;> rcases back _ _ _ hy with hy | hy
    · exact W.once _ _ _ _ _ hx hy
    · have := W.below _ _ _ hx; have := mem_number _ _ hy; omega
    · have := W.below _ _ _ hy; have := mem_number _ _ hx; omega
    · exact number_once _ _ hx hy
  · intro k c v h _
    show _ ∈ d'
    rw [ha, h3]
    exact hk _ _ ((hm _ _).1 h)
  · intro k c v h hc
    rcases back _ _ _ h with h | h
    · exact ⟨v, h⟩
    · have := mem_number _ _ h; omega

/-- Erasing the nodes of some keys. -/
theorem StepOk.erase {op : ROp K V} {s : Nodes K V} (W : s.WF) {m m' : FMap K (ℕ × V)} (hm : Holds s.d m) {d' : List (K × ℕ × V)}
    (h1 : Increasing kLt d') (h2 : d'.length ≤ maxLen) (h3 : Holds d' m')
    (hm' : ∀ k p, m'.lookup k = some p ↔ m.lookup k = some p ∧ ¬ op.Drops s k)
    (ha : ∀ k c v, op.after k c v = v) : StepOk op s ⟨d', s.next + 0⟩ := by
  have back : ∀ k c v, (k, c, v) ∈ d' ↔ (k, c, v) ∈ s.d ∧ ¬ op.Drops s k := by
    intro k c v
    rw [h3, hm', hm]
  refine ⟨⟨h1, h2, ?_, ?_⟩, Nat.le_refl _, ?_, ?_, ?_⟩
  · intro k c v h
    exact W.below _ _ _ ((back _ _ _).1 h).1
  · intro a b c x y hx hy
    exact W.once _ _ _ _ _ ((back _ _ _).1 hx).1 ((back _ _ _).1 hy).1
  · intro k c v h hdr
    show _ ∈ d'
    rw [ha, back]; exact ⟨h, hdr⟩
  · intro k c v h _
    exact ⟨v, ((back _ _ _).1 h).1⟩
  · intro k c v h hdr k' v' h'
    have := (back _ _ _).1 h'
    have e := W.once _ _ _ _ _ h this.1
    subst e
    exact this.2 hdr

theorem find_node {s : Nodes K V} (W : s.WF) {k : K} {c : ℕ} {v : V} (h : (k, c, v) ∈ s.d) :
    s.d.find? (fun p => p.2.1 == c) = some (k, c, v) := by
  cases hf : s.d.find? (fun p => p.2.1 == c) with
  | none =>
    rw [List.find?_eq_none] at hf
    exact absurd (beq_self_eq_true c) (hf _ h)
  | some p =>
    have h1 := List.mem_of_find?_eq_some hf
    have h2 := List.find?_some hf
    obtain ⟨k', c', v'⟩ := p
    have h2' : c' = c := by simpa using h2
    subst h2'
    have e := W.once _ _ _ _ _ h1 h
    subst e
    have := key_unique W.inc h1 h
    cases this
    rfl

/-- Every operation preserves the form; it keeps or erases nodes as it should. -/
theorem step_fair {s : Nodes K V} (W : s.WF) (op : ROp K V)
    (hf : ∀ xs, op = .extend xs → ∀ m, Holds s.d m → ((number s.next xs).foldl FMap.addNew m).keys.card ≤ maxLen) :
    StepOk op s (op.step ltOf s).2 := by
  obtain ⟨m, hm⟩ := exists_map W.inc
  have hcard := hm.card W.inc
  cases op with
  | add k v =>
    have H := step_of W (op := .add k v) hm rfl trivial
    simp only [MOp.abs] at H
    split at H
    · rename_i heq
      split at heq
      · cases heq
      · cases heq
        obtain ⟨d', e, h1, h2, h3⟩ := H
        rw [e]
        refine StepOk.insert W hm h1 h2 h3 [(k, v)] rfl (fun k p h => addNew_keep h _) (fun k p h => ?_) (fun _ _ _ => rfl) (fun _ h => h)
        rcases addNew_origin h with h | h
        · exact .inl h
        · exact .inr (by rw [h]; simp [number])
    · rw [H]
      exact StepOk.same W _ (fun _ _ _ _ => rfl) (fun _ _ _ _ h => h)
  | remove k =>
    have H := step_of W (op := .remove k) hm rfl trivial
    obtain ⟨d', e, h1, h2, h3⟩ := H
    rw [e]
    refine StepOk.erase W hm h1 h2 h3 (fun k' p => ?_) (fun _ _ _ => rfl)
    show _ ↔ _ ∧ ¬ k = k'
    by_cases hk : k' = k
    · subst hk; simp
    · rw [Finmap.lookup_erase_ne hk]
      exact ⟨fun h => ⟨h, fun e => hk e.symm⟩, fun h => h.1⟩
  | clear =>
    have H := step_of W (op := .clear) hm rfl trivial
    obtain ⟨d', e, h1, h2, h3⟩ := H
    rw [e]
    refine StepOk.erase W hm h1 h2 h3 (fun k' p => ?_) (fun _ _ _ => rfl)
    show _ ↔ _ ∧ ¬ True
    simp
  | pop =>
    have H := step_of W (op := .pop) hm rfl trivial
    cases hd : s.d with
    | nil =>
      rw [hd] at hm
      rw [MOp.abs, least_nil hm] at H
      simp only at H
      rw [H]
      exact StepOk.same W _ (fun _ _ _ _ => rfl) (fun k c v h => by rw [hd] at h; cases h)
    | cons p ps =>
      have hl := least_cons (hd ▸ W.inc) (hd ▸ hm)
      rw [MOp.abs, hl] at H
      obtain ⟨d', e, h1, h2, h3⟩ := H
      rw [e]
      refine StepOk.erase W hm h1 h2 h3 (fun k' q => ?_) (fun _ _ _ => rfl)
      show _ ↔ _ ∧ ¬ (s.d.head?.map Prod.fst = some k')
      rw [hd]
      simp only [List.head?_cons, Option.map_some, Option.some.injEq]
      by_cases hk : k' = p.1
      · subst hk; simp
      · rw [Finmap.lookup_erase_ne hk]
        exact ⟨fun h => ⟨h, fun e => hk e.symm⟩, fun h => h.1⟩
  | extend xs =>
    have H := step_of W (op := .extend xs) hm rfl (hf xs rfl m hm)
    obtain ⟨d', e, h1, h2, h3⟩ := H
    rw [e]
    exact StepOk.insert W hm h1 h2 h3 xs rfl (fun k p h => foldl_keep _ h) (fun k p h => foldl_origin _ h) (fun _ _ _ => rfl) (fun _ h => h)
  | assign k v =>
    have hg := PDict.get_run W.inc hm k
    cases hl : m.lookup k with
    | none =>
      rw [hl] at hg
      have e : (ROp.assign k v).step ltOf s = (.throw msgKey, s) := by
        simp only [ROp.step, ROp.mop, hg, Res.throw_bind]
      rw [e]
      refine StepOk.same W 0 (fun k' c v' h => ?_) (fun _ _ _ _ h => h)
      have hne : k ≠ k' := by
        rintro rfl
        rw [hm, hl] at h; cases h
      simp [ROp.after, hne]
    | some p =>
      obtain ⟨c, w⟩ := p
      rw [hl] at hg
      have e0 : (ROp.assign k v).mop ltOf s = .ok (.assign k (c, v)) := by
        simp only [ROp.mop, hg, Res.ok_bind, Res.pure_eq]
      have H := step_of W hm e0 trivial
      have hmem : k ∈ m := Finmap.lookup_isSome.1 (by rw [hl]; rfl)
      simp only [MOp.abs, hmem, if_true] at H
      obtain ⟨d', e, h1, h2, h3⟩ := H
      rw [e]
      refine StepOk.write W hm ((hm _ _).2 hl) h1 h2 h3 (by simp [ROp.after]) ?_ (fun _ h => h)
      intro k' c' v' _ hne
      have : k ≠ k' := fun e => hne e.symm
      simp [ROp.after, this]
  | write c v =>
    cases hfd : s.d.find? (fun p => p.2.1 == c) with
    | none =>
      have e : (ROp.write c v).step ltOf s = (.ub .badDeref, s) := by
        simp only [ROp.step, ROp.mop, hfd]
      rw [e]
      refine StepOk.same W 0 (fun k' c' v' h => ?_) (fun _ _ _ _ h => h)
      have hne : c ≠ c' := by
        rintro rfl
        rw [find_node W h] at hfd; cases hfd
      simp [ROp.after, hne]
    | some p =>
      obtain ⟨k, c', w⟩ := p
      have hmemd := List.mem_of_find?_eq_some hfd
      have hc : c' = c := by simpa using List.find?_some hfd
      subst hc
      have e0 : (ROp.write c' v).mop ltOf s = .ok (.assign k (c', v)) := by
        simp only [ROp.mop, hfd]
      have H := step_of W hm e0 trivial
      have hmem : k ∈ m := (hm.mem k).2 ⟨_, hmemd⟩
      simp only [MOp.abs, hmem, if_true] at H
      obtain ⟨d', e, h1, h2, h3⟩ := H
      rw [e]
      refine StepOk.write W hm hmemd h1 h2 h3 (by simp [ROp.after]) ?_ (fun _ h => h)
      intro k' c'' v' hin hne
      have : c' ≠ c'' := by
        rintro rfl
        exact hne (W.once _ _ _ _ _ hin hmemd)
      simp [ROp.after, this]

theorem step_ok {s : Nodes K V} (W : s.WF) (op : ROp K V) (hf : op.Fits s) : StepOk op s (op.step ltOf s).2 := by
  refine step_fair W op fun xs e m hm => ?_
  subst e
  have h1 := foldl_card (number s.next xs) m
  have hcard := hm.card W.inc
  rw [number_length] at h1
  have : s.d.length + xs.length ≤ maxLen := hf
  omega

/-- Going through a sequence. -/
theorem run_cons {op : ROp K V} {ops : List (ROp K V)} {s s' : Nodes K V} (h : ROp.run ltOf (op :: ops) s = some s') :
    ROp.run ltOf ops (op.step ltOf s).2 = some s' := by
  unfold ROp.run at h
  split at h
  · rename_i e; rw [e]; exact h
  · rename_i e; rw [e]; exact h
  · cases h

theorem run_keep {k : K} {c : ℕ} : ∀ (ops : List (ROp K V)) {s s' : Nodes K V} {v : V}, s.WF → (k, c, v) ∈ s.d → ROp.Keeps k ops s →
    ROp.run ltOf ops s = some s' → s'.WF ∧ (k, c, ops.foldl (fun v op => op.after k c v) v) ∈ s'.d
  | [], s, s', v, W, h, _, e => by cases e; exact ⟨W, h⟩
  | op :: ops, s, s', v, W, h, hk, e => by
    have S := step_ok W op hk.1
    exact run_keep ops S.wf (S.keep _ _ _ h hk.2.1) hk.2.2 (run_cons e)

theorem run_dead {c : ℕ} : ∀ (ops : List (ROp K V)) {s s' : Nodes K V}, s.WF → c < s.next → (∀ k v, (k, c, v) ∉ s.d) → ROp.AllFit ops s →
    ROp.run ltOf ops s = some s' → ∀ k v, (k, c, v) ∉ s'.d
  | [], s, s', _, _, h, _, e => by cases e; exact h
  | op :: ops, s, s', W, hc, h, hf, e => by
    have S := step_ok W op hf.1
    refine run_dead ops S.wf (Nat.lt_of_lt_of_le hc S.mono) (fun k v hin => ?_) hf.2 (run_cons e)
    obtain ⟨w, hw⟩ := S.old _ _ _ hin hc
    exact h _ _ hw

theorem readNode_mem {s : Nodes K V} (W : s.WF) {k : K} {c : ℕ} {v : V} (h : (k, c, v) ∈ s.d) : s.readNode c = .ok v := by
  unfold Nodes.readNode
  rw [find_node W h]

omit [LinearOrder K] in
theorem readNode_dead {s : Nodes K V} {c : ℕ} (h : ∀ k v, (k, c, v) ∉ s.d) : s.readNode c = .ub .badDeref := by
  unfold Nodes.readNode
  have : s.d.find? (fun p => p.2.1 == c) = none := by
    rw [List.find?_eq_none]
    rintro ⟨k, c', v⟩ hin hc
    have : c' = c := by simpa using hc
    subst this
    exact h _ _ hin
  rw [this]

theorem get_mem {s : Nodes K V} (W : s.WF) {k : K} {p : ℕ × V} (h : (k, p) ∈ s.d) : PDict.get ltOf s.d k = .ok p := by
  obtain ⟨m, hm⟩ := exists_map W.inc
  rw [PDict.get_run W.inc hm, (hm _ _).1 h]

theorem contains_mem {s : Nodes K V} (W : s.WF) (k : K) : PDict.contains ltOf s.d k = true ↔ ∃ p, (k, p) ∈ s.d := by
  obtain ⟨m, hm⟩ := exists_map W.inc
  rw [PDict.contains_run W.inc hm, decide_eq_true_eq, hm.mem]

theorem nodes_get_held {s : Nodes K V} (W : s.WF) {k : K} {c : ℕ} {v : V} (h : (k, c, v) ∈ s.d) (a : Default V) :
    s.get ltOf k a = .ok (.node c) := by
  unfold Nodes.get Nodes.at
  rw [if_pos ((contains_mem W k).2 ⟨_, h⟩), get_mem W h]
  rfl

theorem nodes_get_missing {s : Nodes K V} (W : s.WF) {k : K} (h : ∀ p, (k, p) ∉ s.d) (a : Default V) :
    s.get ltOf k a = .ok (.default a) := by
  unfold Nodes.get
  rw [if_neg]
  rw [contains_mem W]
  rintro ⟨p, hp⟩
  exact h p hp

end PDict

open PDict

variable {K V : Type} [LinearOrder K]

/-- C83: `dict[key]` and `dict.get(key, …)` of a key that is held return a reference to its value. Whatever is done afterwards, as long
as the pair is not removed, reading through the reference gives what `dict[key]` gives: the value last assigned to `dict[key]` or
through the reference. -/
theorem C83_stable (s : Nodes K V) (W : s.WF) (k : K) (c : ℕ) (v : V) (h : (k, c, v) ∈ s.d) (a : Default V)
    (ops : List (ROp K V)) (s' : Nodes K V) (hk : ROp.Keeps k ops s) (hr : ROp.run ltOf ops s = some s') :
    s.at ltOf k = .ok (.node c) ∧ s.get ltOf k a = .ok (.node c) ∧
    ∃ w, s'.read true (.node c) = .ok w ∧ PDict.get ltOf s'.d k = .ok (c, w) ∧
      w = ops.foldl (fun v op => op.after k c v) v := by
  obtain ⟨W', h'⟩ := run_keep ops W h hk hr
  refine ⟨?_, nodes_get_held W h a, _, readNode_mem W' h', get_mem W' h', rfl⟩
  unfold Nodes.at
  rw [get_mem W h]; rfl

/-- C83: once the pair is removed, a reference to its value is dangling for ever, even if the key is added again. -/
theorem C83_removed (s : Nodes K V) (W : s.WF) (k : K) (c : ℕ) (v : V) (h : (k, c, v) ∈ s.d) (op : ROp K V) (hd : op.Drops s k)
    (ops : List (ROp K V)) (s' : Nodes K V) (hf : ROp.AllFit (op :: ops) s) (hr : ROp.run ltOf (op :: ops) s = some s') :
    s'.read true (.node c) = .ub .badDeref := by
  have S := step_ok W op hf.1
  exact readNode_dead (run_dead ops S.wf (Nat.lt_of_lt_of_le (W.below _ _ _ h) S.mono) (S.drop _ _ _ h hd) hf.2 (run_cons hr))

/-- C83: the result of `get` used in the same expression: the value of the key, or else the default. -/
theorem C83_get_now (s : Nodes K V) (W : s.WF) (k : K) (a : Default V) :
    (∀ c v, (k, c, v) ∈ s.d → (s.get ltOf k a >>= s.read false) = .ok v) ∧
    ((∀ p, (k, p) ∉ s.d) → (s.get ltOf k a >>= s.read false) = .ok (match a with | .object v => v | .temporary v => v)) := by
  refine ⟨fun c v h => ?_, fun h => ?_⟩
  · rw [nodes_get_held W h, Res.ok_bind]
    exact readNode_mem W h
  · rw [nodes_get_missing W h, Res.ok_bind]
    cases a <;> rfl

/-- C83, kept for later (`const auto& r = dict.get(key, defaults);`): the reference may be read exactly if the key is held or the
default is an object that lives on. -/
theorem C83_get_later_partial (s : Nodes K V) (W : s.WF) (k : K) (a : Default V) :
    (∃ v, (s.get ltOf k a >>= s.read true) = .ok v) ↔ (∃ p, (k, p) ∈ s.d) ∨ ∃ v, a = .object v := by
  by_cases h : ∃ p, (k, p) ∈ s.d
  · obtain ⟨⟨c, v⟩, h⟩ := h
    refine ⟨fun _ => .inl ⟨_, h⟩, fun _ => ⟨v, ?_⟩⟩
    rw [nodes_get_held W h, Res.ok_bind]
    exact readNode_mem W h
  · have h' : ∀ p, (k, p) ∉ s.d := fun p hp => h ⟨p, hp⟩
    rw [nodes_get_missing W h', Res.ok_bind]
    cases a with
    | object v => exact ⟨fun _ => .inr ⟨v, rfl⟩, fun _ => ⟨v, rfl⟩⟩
    | temporary v =>
      constructor
      · rintro ⟨w, hw⟩; simp [Nodes.read] at hw
      · rintro (⟨p, hp⟩ | ⟨w, hw⟩)
        · exact absurd hp (h' p)
        · cases hw

/-- C83 fails of `get`: `const auto& r = dict.get(key, V(…));` with a key that is not held leaves a dangling reference. -/
theorem C83_get_not (s : Nodes K V) (W : s.WF) (k : K) (h : ∀ p, (k, p) ∉ s.d) (v : V) :
    (s.get ltOf k (.temporary v) >>= s.read true) = .ub .badDeref := by
  rw [nodes_get_missing W h, Res.ok_bind]; rfl

/-- The dictionary `{1: "a", 3: "b"}`. -/
def refExample : Nodes ℕ String := ⟨[(1, 0, "a"), (3, 1, "b")], 2⟩

theorem refExample_wf : refExample.WF where
  inc := by rw [increasing_keys]; simp [refExample, increasing_ltOf]
  len := by simp [refExample, maxLen]
  below k c v h := by simp [refExample] at h ⊢; omega
  once k k' c v v' h h' := by simp [refExample] at h h'; omega

example : (refExample.get ltOf 3 (.temporary "z") >>= refExample.read true) = .ok "b" ∧
    (refExample.get ltOf 4 (.temporary "z") >>= refExample.read true) = .ub .badDeref ∧
    (refExample.get ltOf 4 (.temporary "z") >>= refExample.read false) = .ok "z" := by
  refine ⟨?_, C83_get_not _ refExample_wf 4 (fun p h => by simp [refExample] at h) _,
    (C83_get_now _ refExample_wf 4 _).2 (fun p h => by simp [refExample] at h)⟩
  decide +kernel

/-- A reference to the value of 3 survives these operations; removing the key ends it. -/
example : ROp.Keeps 3 [.add 2 "c", .remove 1, .assign 3 "d", .extend [(0, "e")], .pop, .write 1 "f"] refExample ∧
    (ROp.run ltOf [.add 2 "c", .remove 1, .assign 3 "d", .extend [(0, "e")], .pop, .write 1 "f"] refExample).map
      (fun s => s.read true (.node 1)) = some (.ok "f") := by
  refine ⟨?_, by decide +kernel⟩
  simp only [ROp.Keeps, ROp.Fits, ROp.Drops, true_and, and_true]
  refine ⟨not_false, by decide, not_false, by decide +kernel, not_false, by decide +kernel, not_false⟩

example : (ROp.run ltOf [.remove 3, .add 3 "x"] refExample).map (fun s => s.read true (.node 1)) = some (.ub .badDeref) := by
  decide +kernel

end Pyincpp
