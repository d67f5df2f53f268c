import Verif.Model.SetIter
import Verif.Props.Nested

/-! # C88: iterators into a `Set` that is changed -/

namespace Pyincpp
namespace PSet

variable {α : Type} [LinearOrder α]

/-- The elements are in order and the nodes have different numbers, all used. -/
structure Nodes.WF (s : Nodes α) : Prop where
  inc : Increasing ltOf (s.s.map Prod.fst)
  len : s.s.length ≤ maxLen
  below : ∀ p ∈ s.s, p.2 < s.next
  once : (s.s.map Prod.snd).Nodup

/-- The set. -/
def Nodes.vals (s : Nodes α) : Finset α := (s.s.map Prod.fst).toFinset

/-- The operation erases the node of the element `x`. -/
def Drops (S : Finset α) (x : α) : SOp α → Prop
  | .remove e => e = x
  | .pop => ∀ y ∈ S, x ≤ y
  | .clear | .inter _ | .union _ | .diff _ | .symDiff _ => True
  | _ => False

/-- The set after operations. -/
def after (S : Finset α) (ops : List (SOp α)) : Finset α := (SOp.absRun S ops).2

/-- No operation of the sequence erases the node of `x`. -/
def Keeps (x : α) : Finset α → List (SOp α) → Prop
  | _, [] => True
  | S, op :: ops => ¬ Drops S x op ∧ Keeps x (after S [op]) ops

/-- `y` is the element of the set that comes next after `x`, if there is one. -/
def IsNext (S : Finset α) (x : α) : Option α → Prop
  | none => ∀ z ∈ S, z ≤ x
  | some y => y ∈ S ∧ x < y ∧ ∀ z ∈ S, x < z → y ≤ z

/-- `y` is the least element of the set, if there is one. -/
def IsFirst (S : Finset α) : Option α → Prop
  | none => S = ∅
  | some y => y ∈ S ∧ ∀ z ∈ S, y ≤ z

/-- A loop over the set, from the element `x` on, visits the elements `v` and leaves the set `T`, or (`none`) comes to an end because the
iterator has been lost. -/
inductive Visits (body : α → List (SOp α)) : Finset α → Option α → List α → Option (Finset α) → Prop
  | done (S : Finset α) : Visits body S none [] (some S)
  | lost (S : Finset α) (x : α) : SOp.FairRun S (body x) → ¬ Keeps x S (body x) → Visits body S (some x) [x] none
  | visit (S : Finset α) (x : α) (y : Option α) (v : List α) (T : Option (Finset α)) : SOp.FairRun S (body x) → Keeps x S (body x) →
      IsNext (after S (body x)) x y → Visits body (after S (body x)) y v T → Visits body S (some x) (x :: v) T

/-! ## One step -/

theorem keyLt_fst (a b : α × ℕ) : ltOf (Prod.fst a) (Prod.fst b) = PDict.keyLt ltOf a b := rfl

omit [LinearOrder α] in
theorem zipIdx_fst (l : List α) (n : ℕ) : (l.zipIdx n).map Prod.fst = l := by simp

omit [LinearOrder α] in
theorem tag_map {n : ℕ} {op : SOp α} {o : SOp (α × ℕ)} (h : tag n op = some o) : o.map Prod.fst = op := by
  cases op <;> simp only [tag, Option.some.injEq, reduceCtorEq] at h <;> subst h <;> simp [SOp.map]

theorem snd_bind_pure {σ β γ : Type} (x : Meth σ β) (g : β → γ) (s : σ) : ((do let a ← x; pure (g a) : Meth σ γ) s).2 = (x s).2 := by
  rcases h : x s with ⟨r, s'⟩
  cases r with
  | ok a => rw [Meth.run_ok h]; rfl
  | throw m => rw [Meth.run_throw h]
  | ub u => rw [Meth.run_ub h]
  | fuel => rw [Meth.run_fuel h]

theorem add_state {β : Type} (lt : β → β → Bool) (e : β) (s : List β) :
    ((SOp.add e).step lt s).2 = s ∨ ((SOp.add e).step lt s).2 = (Tree.insert lt e s).1 := by
  have h : ((SOp.add e).step lt s).2 = (add lt e s).2 := snd_bind_pure (add lt e) _ s
  rw [h]
  unfold add
  rw [Meth.get_bind]
  generalize checkFull (size s) INT_MAX = r
  cases r with
  | ok u => right; rw [Meth.lift_ok_bind, Meth.set_bind, Meth.pure_run]
  | throw m => left; rw [Meth.lift_throw_bind]
  | ub u => left; rw [Meth.lift_ub_bind]
  | fuel => left; rw [Meth.lift_fuel_bind]

theorem pop_state {β : Type} (lt : β → β → Bool) (s : List β) (hl : s.length ≤ maxLen) : (SOp.pop.step lt s).2 = s.drop 1 := by
  have h : (SOp.pop.step lt s).2 = (pop s).2 := snd_bind_pure pop _ s
  rw [h]
  unfold pop
  rw [Meth.get_bind]
  cases s with
  | nil => rw [checkEmpty_nil, Meth.lift_throw_bind]; rfl
  | cons x xs =>
    have hce : checkEmpty (size (x :: xs)) = .ok () := by
      rw [size_ok hl]; exact Lst.checkEmpty_ok (by simp; omega)
    have hb : stdBegin (x :: xs) = .ok x := by simp [stdBegin, vget]
    rw [hce, Meth.lift_ok_bind, hb, Meth.lift_ok_bind, Meth.set_bind, Meth.pure_run]

theorem remove_state {β : Type} (lt : β → β → Bool) (e : β) (s : List β) : ((SOp.remove e).step lt s).2 = (Tree.erase lt e s).1 := by
  have h : ((SOp.remove e).step lt s).2 = (remove lt e s).2 := snd_bind_pure (remove lt e) _ s
  rw [h]
  unfold remove
  rw [Meth.get_bind, Meth.set_bind, Meth.pure_run]

theorem extend_state {β : Type} (lt : β → β → Bool) (xs : List β) (s : List β) :
    ((SOp.extend xs).step lt s).2 = Tree.insertAll lt xs s := rfl

theorem get_state {β γ : Type} (x : List β → Res γ) (g : γ → SRet β) (s : List β) :
    ((do let s ← Meth.get; pure (g (← Meth.lift (x s))) : Meth (List β) (SRet β)) s).2 = s := by
  rw [Meth.get_bind, snd_bind_pure]
  cases x s <;> rfl

variable {s s' : Nodes α} {op : SOp α}

theorem wf_keyInc (W : s.WF) : Increasing (PDict.keyLt ltOf) s.s := by
  have := W.inc
  unfold Increasing at this ⊢
  rw [List.pairwise_map] at this
  exact this

theorem insertAll_keep {β : Type} {lt : β → β → Bool} (W : StrictWeak lt) : ∀ (xs s : List β), Increasing lt s →
    Increasing lt (Tree.insertAll lt xs s) ∧ (∀ p ∈ s, p ∈ Tree.insertAll lt xs s) ∧ ∀ p ∈ Tree.insertAll lt xs s, p ∈ s ∨ p ∈ xs
  | [], s, h => ⟨h, fun _ hp => hp, fun _ hp => .inl hp⟩
  | x :: xs, s, h => by
    obtain ⟨m, -, i, -⟩ := Tree.insert_mem W x s h
    obtain ⟨a, b, c⟩ := insertAll_keep W xs _ i
    refine ⟨a, fun p hp => b p ((m p).2 (.inl hp)), fun p hp => ?_⟩
    rcases c p hp with hq | hq
    · rcases (m p).1 hq with hq | ⟨rfl, -⟩
      · exact .inl hq
      · exact .inr List.mem_cons_self
    · exact .inr (List.mem_cons_of_mem _ hq)

theorem erase_sublist {β : Type} (lt : β → β → Bool) (x : β) : ∀ s : List β, (Tree.erase lt x s).1.Sublist s
  | [] => List.Sublist.refl _
  | y :: ys => by
    unfold Tree.erase
    split
    · exact (erase_sublist lt x ys).cons_cons y
    · split
      · exact List.Sublist.refl _
      · exact List.sublist_cons_self y ys

/-- What an operation does to the nodes. -/
structure Moves (s : Nodes α) (op : SOp α) (s' : Nodes α) : Prop where
  keep : ∀ p ∈ s.s, ¬ Drops s.vals p.1 op → p ∈ s'.s
  drop : ∀ p ∈ s.s, Drops s.vals p.1 op → p ∉ s'.s
  origin : ∀ p ∈ s'.s, p ∈ s.s ∨ s.next ≤ p.2
  below : ∀ p ∈ s'.s, p.2 < s'.next
  mono : s.next ≤ s'.next
  once : (s'.s.map Prod.snd).Nodup

theorem mem_vals {x : α} : x ∈ s.vals ↔ ∃ p ∈ s.s, p.1 = x := by
  unfold Nodes.vals; simp

theorem WF.node (W : s.WF) {p q : α × ℕ} (hp : p ∈ s.s) (hq : q ∈ s.s) (h : p.2 = q.2) : p = q :=
  List.inj_on_of_nodup_map W.once hp hq h

/-- Sublists in the sense of membership keep the numbers different. -/
theorem once_of_mem {l : List (α × ℕ)} (hi : Increasing (PDict.keyLt ltOf) l) (h : ∀ p ∈ l, ∀ q ∈ l, p.2 = q.2 → p = q) :
    (l.map Prod.snd).Nodup := by
  have hn : l.Nodup := hi.imp (fun {a b} hab e => by subst e; simp [PDict.keyLt, ltOf] at hab)
  exact hn.map_on h

theorem tagged_moves (W : s.WF) {o : SOp (α × ℕ)} (h : tag s.next op = some o) :
    Moves s op ⟨(o.step (PDict.keyLt ltOf) s.s).2, s.next + uses op⟩ := by
  have K : StrictWeak (PDict.keyLt ltOf : α × ℕ → α × ℕ → Bool) := keyLt_strictWeak ltOf_strictWeak
  have hi := wf_keyInc W
  have same : ∀ op : SOp α, (∀ x, ¬ Drops s.vals x op) → uses op = 0 → Moves s op ⟨s.s, s.next + uses op⟩ := fun op h1 h2 =>
    ⟨fun p hp _ => hp, fun p _ hd => absurd hd (h1 _), fun p hp => .inl hp, fun p hp => by rw [h2]; exact W.below p hp, Nat.le_add_right _ _, W.once⟩
  have sub : ∀ (op : SOp α) (l : List (α × ℕ)), (∀ p, p ∈ l ↔ p ∈ s.s ∧ ¬ Drops s.vals p.1 op) → l.Sublist s.s → Moves s op ⟨l, s.next + uses op⟩ :=
    fun op l h1 h2 => ⟨fun p hp hd => (h1 p).2 ⟨hp, hd⟩, fun p _ hd hl => ((h1 p).1 hl).2 hd, fun p hp => .inl ((h1 p).1 hp).1,
      fun p hp => Nat.lt_of_lt_of_le (W.below p ((h1 p).1 hp).1) (Nat.le_add_right _ _), Nat.le_add_right _ _,
      W.once.sublist (h2.map _)⟩
  cases op with
  | add e =>
    cases h
    rcases add_state (PDict.keyLt ltOf) (e, s.next) s.s with e' | e' <;> rw [e']
    · exact ⟨fun p hp _ => hp, fun p _ hd => absurd hd (by simp [Drops]), fun p hp => .inl hp,
        fun p hp => Nat.lt_of_lt_of_le (W.below p hp) (Nat.le_add_right _ _), Nat.le_add_right _ _, W.once⟩
    · obtain ⟨m, -, i, -⟩ := Tree.insert_mem K (e, s.next) s.s hi
      refine ⟨fun p hp _ => (m p).2 (.inl hp), fun p _ hd => absurd hd (by simp [Drops]), fun p hp => ?_, fun p hp => ?_, Nat.le_add_right _ _, ?_⟩
      · rcases (m p).1 hp with hp | ⟨rfl, -⟩
        · exact .inl hp
        · exact .inr le_rfl
      · rcases (m p).1 hp with hp | ⟨rfl, -⟩
        · exact Nat.lt_of_lt_of_le (W.below p hp) (Nat.le_add_right _ _)
        · exact Nat.lt_succ_self _
      · refine once_of_mem i fun p hp q hq hpq => ?_
        rcases (m p).1 hp with hp | ⟨rfl, -⟩ <;> rcases (m q).1 hq with hq | ⟨rfl, -⟩
        · exact WF.node W hp hq hpq
        · have := W.below p hp; simp only at hpq; omega
        · have := W.below q hq; simp only at hpq; omega
        · rfl
  | remove e =>
    cases h
    rw [remove_state]
    obtain ⟨m, -, -, -⟩ := Tree.erase_mem K (e, s.next) s.s hi
    refine sub (.remove e) _ (fun p => ?_) (erase_sublist _ _ _)
    rw [m]
    have : Eqv (PDict.keyLt ltOf) (e, s.next) p ↔ e = p.1 := by
      show Eqv ltOf e p.1 ↔ _
      rw [eqv_ltOf]
    rw [this]; rfl
  | pop =>
    cases h
    rw [pop_state _ _ W.len]
    refine sub .pop _ (fun p => ?_) (List.drop_sublist _ _)
    cases hs : s.s with
    | nil => simp
    | cons a as =>
      have hinc := W.inc
      rw [hs, List.map_cons, Increasing.cons] at hinc
      have ha : ∀ q ∈ as, a.1 < q.1 := fun q hq => by
        have := hinc.1 q.1 (List.mem_map_of_mem hq)
        simpa [ltOf] using this
      have hv : ∀ y, y ∈ s.vals ↔ y = a.1 ∨ ∃ q ∈ as, q.1 = y := fun y => by
        rw [mem_vals, hs]; simp [eq_comm]
      simp only [List.drop_succ_cons, List.drop_zero, List.mem_cons, Drops]
      constructor
      · intro hp
        refine ⟨.inr hp, fun hall => ?_⟩
        exact absurd (hall a.1 ((hv _).2 (.inl rfl))) (not_le.2 (ha p hp))
      · rintro ⟨rfl | hp, hn⟩
        · refine absurd (fun y hy => ?_) hn
          rcases (hv y).1 hy with rfl | ⟨q, hq, rfl⟩
          · exact le_rfl
          · exact (ha q hq).le
        · exact hp
  | min => cases h; rw [show ((SOp.min).step (PDict.keyLt ltOf) s.s).2 = s.s from get_state (PSet.min) _ _]; exact same .min (fun _ h => h) rfl
  | max => cases h; rw [show ((SOp.max).step (PDict.keyLt ltOf) s.s).2 = s.s from get_state (PSet.max) _ _]; exact same .max (fun _ h => h) rfl
  | contains e => cases h; exact same (.contains e) (fun _ h => h) rfl
  | size => cases h; exact same .size (fun _ h => h) rfl
  | extend xs =>
    cases h
    rw [extend_state]
    obtain ⟨i, k, c⟩ := insertAll_keep K (xs.zipIdx s.next) s.s hi
    have hz : ∀ p ∈ xs.zipIdx s.next, s.next ≤ p.2 ∧ p.2 < s.next + xs.length := fun p hp => by
      obtain ⟨h1, h2, -⟩ := List.mem_zipIdx (x := p.1) (i := p.2) hp
      exact ⟨h1, h2⟩
    have hzn : ∀ p ∈ xs.zipIdx s.next, ∀ q ∈ xs.zipIdx s.next, p.2 = q.2 → p = q :=
      fun p hp q hq e => by
        obtain ⟨-, h1, h2⟩ := List.mem_zipIdx (x := p.1) (i := p.2) hp
        obtain ⟨-, h3, h4⟩ := List.mem_zipIdx (x := q.1) (i := q.2) hq
        refine Prod.ext ?_ e
        rw [h2, h4]
        simp only [e]
    refine ⟨fun p hp _ => k p hp, fun p _ hd => absurd hd (by simp [Drops]), fun p hp => ?_, fun p hp => ?_, Nat.le_add_right _ _, ?_⟩
    · rcases c p hp with hp | hp
      · exact .inl hp
      · exact .inr (hz p hp).1
    · rcases c p hp with hp | hp
      · exact Nat.lt_of_lt_of_le (W.below p hp) (Nat.le_add_right _ _)
      · exact (hz p hp).2
    · refine once_of_mem i fun p hp q hq hpq => ?_
      rcases c p hp with hp | hp <;> rcases c q hq with hq | hq
      · exact WF.node W hp hq hpq
      · have := W.below p hp; have := hz q hq; omega
      · have := W.below q hq; have := hz p hp; omega
      · exact hzn p hp q hq hpq
  | clear =>
    cases h
    refine sub .clear [] (fun p => ?_) (List.nil_sublist _)
    simp [Drops]
  | inter t => cases h
  | union t => cases h
  | diff t => cases h
  | symDiff t => cases h

theorem moved_moves (h : tag s.next op = none) (l : List α) (W : s.WF) : Moves s op ⟨l.zipIdx s.next, s.next + l.length⟩ := by
  have hz : ∀ p ∈ l.zipIdx s.next, s.next ≤ p.2 ∧ p.2 < s.next + l.length := fun p hp => by
    obtain ⟨h1, h2, -⟩ := List.mem_zipIdx (x := p.1) (i := p.2) hp
    exact ⟨h1, h2⟩
  have hd : ∀ x, Drops s.vals x op := by cases op <;> simp [tag, Drops] at h ⊢
  refine ⟨fun p _ hn => absurd (hd _) hn, fun p hp _ hq => ?_, fun p hp => .inr (hz p hp).1, fun p hp => (hz p hp).2, Nat.le_add_right _ _, ?_⟩
  · have := W.below p hp
    have := (hz p hq).1
    omega
  · simp only [List.zipIdx_map_snd]
    exact List.nodup_range'

/-- One operation against the abstract set. -/
theorem step_ok (W : s.WF) (hf : op.Fair s.vals) : ∃ s', s'.WF ∧ Moves s op s' ∧ s'.vals = after s.vals [op] ∧
    (s.step ltOf op = (.ok (), s') ∨ ∃ m, s.step ltOf op = (.throw m, s')) := by
  have hl : (s.s.map Prod.fst).length ≤ maxLen := by rw [List.length_map]; exact W.len
  have H := set_step op (s.s.map Prod.fst) W.inc hl hf
  have key : ∃ r : Res (SRet α), ∃ l', op.step ltOf (s.s.map Prod.fst) = (r, l') ∧ Increasing ltOf l' ∧ l'.length ≤ maxLen ∧
      l'.toFinset = after s.vals [op] ∧ ((∃ x, r = .ok x) ∨ ∃ m, r = .throw m) := by
    unfold after
    rw [SOp.absRun]
    change match op.abs s.vals with | .ok (r, f) => _ | .error m => _ at H
    cases ha : op.abs s.vals with
    | ok rf =>
      rw [ha] at H
      obtain ⟨l', h1, h2, h3, h4⟩ := H
      exact ⟨_, l', h1, h2, h3, h4, .inl ⟨_, rfl⟩⟩
    | error m =>
      rw [ha] at H
      exact ⟨_, _, H, W.inc, hl, rfl, .inr ⟨m, rfl⟩⟩
  obtain ⟨r, l', e, h2, h3, h4, h5⟩ := key
  have build : ∀ s' : Nodes α, Moves s op s' → s'.s.map Prod.fst = l' → s'.WF ∧ s'.vals = after s.vals [op] := fun s' M hm =>
    ⟨⟨by rw [hm]; exact h2, by rw [← hm, List.length_map] at h3; exact h3, M.below, M.once⟩, by unfold Nodes.vals; rw [hm]; exact h4⟩
  unfold Nodes.step
  cases ht : tag s.next op with
  | some o =>
    have hm := step_map (lt := PDict.keyLt ltOf) (lt' := ltOf) (f := (Prod.fst : α × ℕ → α)) (fun _ _ => rfl) o s.s
    rw [tag_map ht, e] at hm
    have M := tagged_moves W ht
    obtain ⟨a, b⟩ := build _ M (Prod.ext_iff.1 hm).2.symm
    refine ⟨_, a, M, b, ?_⟩
    have hr := (Prod.ext_iff.1 hm).1
    simp only at hr ⊢
    cases hq : (o.step (PDict.keyLt ltOf) s.s).1 with
    | ok x => left; rfl
    | throw m => right; exact ⟨m, rfl⟩
    | ub u => rw [hq] at hr; rcases h5 with ⟨x, rfl⟩ | ⟨m, rfl⟩ <;> cases hr
    | fuel => rw [hq] at hr; rcases h5 with ⟨x, rfl⟩ | ⟨m, rfl⟩ <;> cases hr
  | none =>
    have M := moved_moves ht l' W
    obtain ⟨a, b⟩ := build _ M (zipIdx_fst _ _)
    simp only [e]
    refine ⟨_, a, M, b, ?_⟩
    rcases h5 with ⟨x, rfl⟩ | ⟨m, rfl⟩
    · left; rfl
    · right; exact ⟨m, rfl⟩

theorem after_cons (S : Finset α) (op : SOp α) (ops : List (SOp α)) : after S (op :: ops) = after (after S [op]) ops := by
  unfold after
  simp only [SOp.absRun]
  cases op.abs S <;> rfl

theorem fair_cons {S : Finset α} {ops : List (SOp α)} (h : SOp.FairRun S (op :: ops)) : op.Fair S ∧ SOp.FairRun (after S [op]) ops := by
  refine ⟨h.1, ?_⟩
  have := h.2
  unfold after
  simp only [SOp.absRun]
  cases ha : op.abs S <;> rw [ha] at this <;> exact this

/-- Operations against the abstract set, and what happens to a node. -/
theorem run_ok (ops : List (SOp α)) : ∀ {s : Nodes α}, s.WF → SOp.FairRun s.vals ops → ∃ s', s.run ltOf ops = .ok s' ∧ s'.WF ∧
    s'.vals = after s.vals ops ∧ s.next ≤ s'.next ∧ (∀ p ∈ s.s, Keeps p.1 s.vals ops → p ∈ s'.s) ∧ (∀ p ∈ s.s, ¬ Keeps p.1 s.vals ops → p ∉ s'.s) ∧
    ∀ p ∈ s'.s, p ∈ s.s ∨ s.next ≤ p.2 := by
  induction ops with
  | nil => intro s W _; exact ⟨s, rfl, W, rfl, le_rfl, fun p hp _ => hp, fun p _ h => absurd trivial h, fun p hp => .inl hp⟩
  | cons op ops ih =>
    intro s W hf
    obtain ⟨f1, f2⟩ := fair_cons hf
    obtain ⟨s1, W1, M, hv, hs⟩ := step_ok W f1
    rw [← hv] at f2
    obtain ⟨s', r1, W', v', n', k', d', o'⟩ := ih W1 f2
    refine ⟨s', ?_, W', ?_, M.mono.trans n', fun p hp hk => ?_, fun p hp hk => ?_, fun p hp => ?_⟩
    · unfold Nodes.run
      rcases hs with hs | ⟨m, hs⟩ <;> rw [hs] <;> exact r1
    · rw [v', hv, ← after_cons]
    · have := hk.2
      rw [← hv] at this
      exact k' p (M.keep p hp hk.1) this
    · by_cases hd : Drops s.vals p.1 op
      · intro hq
        rcases o' p hq with h | h
        · exact M.drop p hp hd h
        · have := W.below p hp
          have := M.mono
          omega
      · refine d' p (M.keep p hp hd) fun h => hk ⟨hd, ?_⟩
        rw [← hv]; exact h
    · rcases o' p hp with h | h
      · exact M.origin p h
      · exact .inr (M.mono.trans h)

/-! ## Iterators -/

theorem find_node {l : List (α × ℕ)} (h : (l.map Prod.snd).Nodup) {p : α × ℕ} (hp : p ∈ l) : l.find? (fun q => q.2 == p.2) = some p := by
  cases hf : l.find? (fun q => q.2 == p.2) with
  | none =>
    rw [List.find?_eq_none] at hf
    exact absurd (hf p hp) (by simp)
  | some q =>
    have h1 := List.mem_of_find?_eq_some hf
    have h2 := List.find?_some hf
    simp only [beq_iff_eq] at h2
    rw [List.inj_on_of_nodup_map h h1 hp h2]

theorem behind_none (c : ℕ) : ∀ l : List (α × ℕ), (∀ p ∈ l, p.2 ≠ c) → It.behind c l = .ub .badDeref
  | [], _ => rfl
  | p :: ps, h => by
    unfold It.behind
    rw [if_neg (by simpa using h p List.mem_cons_self)]
    exact behind_none c ps fun q hq => h q (List.mem_cons_of_mem _ hq)

/-- The iterator `it` refers to the element `o` (or is the end). -/
def Refers (s : Nodes α) (it : It) : Option α → Prop
  | none => it = .last
  | some y => ∃ c, it = .node c ∧ (y, c) ∈ s.s

theorem behind_next : ∀ (l : List (α × ℕ)), Increasing ltOf (l.map Prod.fst) → (l.map Prod.snd).Nodup → ∀ p ∈ l,
    ∃ a b, l = a ++ p :: b ∧ It.behind p.2 l = .ok (It.first b) := by
  intro l
  induction l with
  | nil => intro _ _ p hp; exact absurd hp List.not_mem_nil
  | cons q qs ih =>
    intro hi hn p hp
    rw [List.map_cons, Increasing.cons] at hi
    rw [List.map_cons, List.nodup_cons] at hn
    unfold It.behind
    by_cases e : q.2 = p.2
    · have : p = q := by
        rcases List.mem_cons.1 hp with h | h
        · exact h
        · exact absurd (by rw [e]; exact List.mem_map_of_mem h) hn.1
      subst this
      exact ⟨[], qs, rfl, by rw [if_pos (by simp)]⟩
    · rcases List.mem_cons.1 hp with h | h
      · exact absurd (by rw [h]) e
      · obtain ⟨a, b, h1, h2⟩ := ih hi.2 hn.2 p h
        exact ⟨q :: a, b, by rw [h1]; rfl, by rw [if_neg (by simpa using e)]; exact h2⟩

/-- Going forward from a node: to the next element. -/
theorem inc_next (W : s.WF) {x : α} {c : ℕ} (h : (x, c) ∈ s.s) : ∃ it o, s.inc (.node c) = .ok it ∧ IsNext s.vals x o ∧ Refers s it o := by
  obtain ⟨a, b, h1, h2⟩ := behind_next s.s W.inc W.once (x, c) h
  have hi := wf_keyInc W
  rw [h1] at hi
  have hlt : ∀ q ∈ a, q.1 < x := fun q hq => by
    have := (List.pairwise_append.1 hi).2.2 q hq (x, c) List.mem_cons_self
    simpa [PDict.keyLt, ltOf] using this
  have hgt : ∀ q ∈ b, x < q.1 := fun q hq => by
    have := (List.pairwise_cons.1 (List.pairwise_append.1 hi).2.1).1 q hq
    simpa [PDict.keyLt, ltOf] using this
  have hv : ∀ z, z ∈ s.vals → z ≤ x ∨ ∃ q ∈ b, q.1 = z := fun z hz => by
    obtain ⟨q, hq, rfl⟩ := mem_vals.1 hz
    rw [h1, List.mem_append, List.mem_cons] at hq
    rcases hq with hq | rfl | hq
    · exact .inl (hlt q hq).le
    · exact .inl le_rfl
    · exact .inr ⟨q, hq, rfl⟩
  cases b with
  | nil =>
    refine ⟨.last, none, h2, fun z hz => ?_, rfl⟩
    rcases hv z hz with h | ⟨q, hq, -⟩
    · exact h
    · exact absurd hq List.not_mem_nil
  | cons q b =>
    have hq : q ∈ s.s := by rw [h1]; simp
    refine ⟨.node q.2, some q.1, h2, ⟨mem_vals.2 ⟨q, hq, rfl⟩, hgt q List.mem_cons_self, fun z hz hxz => ?_⟩, q.2, rfl, hq⟩
    rcases hv z hz with h | ⟨r, hr, rfl⟩
    · exact absurd hxz (not_lt.2 h)
    · rcases List.mem_cons.1 hr with rfl | hr
      · exact le_rfl
      · have := (List.pairwise_cons.1 (List.pairwise_cons.1 (List.pairwise_append.1 hi).2.1).2).1 r hr
        simp only [PDict.keyLt, ltOf, decide_eq_true_eq] at this
        exact this.le

theorem begin_first (W : s.WF) : ∃ o, IsFirst s.vals o ∧ Refers s s.begin o := by
  have hi := wf_keyInc W
  unfold Nodes.begin
  cases hs : s.s with
  | nil => exact ⟨none, by unfold IsFirst Nodes.vals; rw [hs]; rfl, rfl⟩
  | cons p ps =>
    rw [hs] at hi
    refine ⟨some p.1, ⟨mem_vals.2 ⟨p, by rw [hs]; simp, rfl⟩, fun z hz => ?_⟩, p.2, rfl, by rw [hs]; simp⟩
    obtain ⟨q, hq, rfl⟩ := mem_vals.1 hz
    rw [hs] at hq
    rcases List.mem_cons.1 hq with rfl | hq
    · exact le_rfl
    · have := (List.pairwise_cons.1 hi).1 q hq
      simp only [PDict.keyLt, ltOf, decide_eq_true_eq] at this
      exact this.le

theorem deref_refers (W : s.WF) {x : α} {c : ℕ} (h : (x, c) ∈ s.s) : s.deref (.node c) = .ok x := by
  simp only [Nodes.deref]
  rw [show s.s.find? (fun p => p.2 == c) = some (x, c) from find_node W.once h]

theorem lost_node {c : ℕ} (h : ∀ p ∈ s.s, p.2 ≠ c) : s.deref (.node c) = .ub .badDeref ∧ s.inc (.node c) = .ub .badDeref := by
  refine ⟨?_, behind_none c s.s h⟩
  simp only [Nodes.deref]
  rw [show s.s.find? (fun p => p.2 == c) = none from List.find?_eq_none.2 fun p hp => by simpa using h p hp]

/-- C88: an iterator to the element `x` can be used after any operations exactly when none of them has erased the element (`&=`, `|=`,
`-=` and `^=` erase all). It still refers to `x`, and the next element is the next greater one that is in the set then. -/
theorem C88_exact (s : Nodes α) (W : s.WF) (x : α) (c : ℕ) (h : (x, c) ∈ s.s) (ops : List (SOp α)) (hf : SOp.FairRun s.vals ops) :
    ∃ s', s.run ltOf ops = .ok s' ∧ s'.WF ∧ s'.vals = (SOp.absRun s.vals ops).2 ∧
      (Keeps x s.vals ops → s'.deref (.node c) = .ok x ∧ ∃ it o, s'.inc (.node c) = .ok it ∧ IsNext s'.vals x o ∧ Refers s' it o) ∧
      (¬ Keeps x s.vals ops → s'.deref (.node c) = .ub .badDeref ∧ s'.inc (.node c) = .ub .badDeref) := by
  obtain ⟨s', h1, W', h2, -, h4, h5, h6⟩ := run_ok ops W hf
  refine ⟨s', h1, W', h2, fun hk => ?_, fun hk => ?_⟩
  · have hm := h4 _ h hk
    exact ⟨deref_refers W' hm, inc_next W' hm⟩
  · refine lost_node fun p hp e => ?_
    rcases h6 p hp with hq | hq
    · exact h5 _ h hk (WF.node W hq h e ▸ hp)
    · have := W.below _ h
      simp only at this
      omega

/-- C88: `begin()` refers to the least element. -/
theorem C88_begin (s : Nodes α) (W : s.WF) : ∃ o, IsFirst s.vals o ∧ Refers s s.begin o := begin_first W

omit [LinearOrder α] in
theorem find_drop {lt : α → α → Bool} (e : α) : ∀ l : List (α × ℕ), Increasing (PDict.keyLt lt) l → StrictWeak lt →
    (∀ i, Tree.find (PDict.keyLt lt) (e, 0) l = some i → ∃ p b, l.drop i = p :: b ∧ p ∈ l ∧ Eqv lt e p.1) ∧
    (Tree.find (PDict.keyLt lt) (e, 0) l = none → ∀ p ∈ l, ¬ Eqv lt e p.1)
  | [], _, _ => ⟨fun i h => by simp [Tree.find] at h, fun _ p hp => absurd hp List.not_mem_nil⟩
  | y :: ys, hi, W => by
    rw [Increasing.cons] at hi
    obtain ⟨a, b⟩ := find_drop e ys hi.2 W
    unfold Tree.find
    by_cases h1 : lt y.1 e = true
    · rw [if_pos (show PDict.keyLt lt y (e, 0) = true from h1)]
      constructor
      · intro i h
        cases hf : Tree.find (PDict.keyLt lt) (e, 0) ys with
        | none => rw [hf] at h; cases h
        | some j =>
          rw [hf] at h
          cases h
          obtain ⟨p, t, e1, e2, e3⟩ := a j hf
          exact ⟨p, t, e1, List.mem_cons_of_mem _ e2, e3⟩
      · intro h p hp
        rcases List.mem_cons.1 hp with rfl | hp
        · exact fun he => by rw [he.2] at h1; cases h1
        · exact b (by cases hf : Tree.find (PDict.keyLt lt) (e, 0) ys with
            | none => rfl
            | some j => rw [hf] at h; cases h) p hp
    · rw [if_neg (show ¬ PDict.keyLt lt y (e, 0) = true from h1)]
      by_cases h2 : lt e y.1 = true
      · rw [if_pos (show PDict.keyLt lt (e, 0) y = true from h2)]
        refine ⟨fun i h => (by cases h), fun _ p hp he => ?_⟩
        rcases List.mem_cons.1 hp with rfl | hp
        · rw [he.1] at h2; cases h2
        · have := W.trans _ _ _ h2 (hi.1 p hp)
          rw [he.1] at this; cases this
      · rw [if_neg (show ¬ PDict.keyLt lt (e, 0) y = true from h2)]
        refine ⟨fun i h => ?_, fun h => by cases h⟩
        cases h
        exact ⟨y, ys, rfl, List.mem_cons_self, by simpa using h2, by simpa using h1⟩

/-- C88: `find(x)` refers to `x` if it is in the set, and is the end otherwise. -/
theorem C88_find (s : Nodes α) (W : s.WF) (x : α) : (x ∈ s.vals → Refers s (s.find ltOf x) (some x)) ∧ (x ∉ s.vals → Refers s (s.find ltOf x) none) := by
  obtain ⟨a, b⟩ := find_drop x s.s (wf_keyInc W) ltOf_strictWeak
  unfold Nodes.find
  cases hf : Tree.find (PDict.keyLt ltOf) (x, 0) s.s with
  | none =>
    refine ⟨fun h => ?_, fun _ => rfl⟩
    obtain ⟨p, hp, rfl⟩ := mem_vals.1 h
    exact absurd (by rw [eqv_ltOf]) (b hf p hp)
  | some i =>
    obtain ⟨p, t, h1, h2, h3⟩ := a i hf
    rw [eqv_ltOf] at h3
    subst h3
    refine ⟨fun _ => ⟨p.2, by simp only [h1, It.first], h2⟩, fun h => absurd (mem_vals.2 ⟨p, h2, rfl⟩) h⟩

theorem IsNext.unique {S : Finset α} {x : α} {o o' : Option α} (h : IsNext S x o) (h' : IsNext S x o') : o = o' := by
  cases o <;> cases o'
  · rfl
  · exact absurd (h _ h'.1) (not_le.2 h'.2.1)
  · exact absurd (h' _ h.1) (not_le.2 h.2.1)
  · exact congrArg some (le_antisymm (h.2.2 _ h'.1 h'.2.1) (h'.2.2 _ h.1 h.2.1))

theorem IsFirst.unique {S : Finset α} {o o' : Option α} (h : IsFirst S o) (h' : IsFirst S o') : o = o' := by
  cases o <;> cases o'
  · rfl
  · have := h'.1; rw [show S = ∅ from h] at this; exact absurd this (Finset.notMem_empty _)
  · have := h.1; rw [show S = ∅ from h'] at this; exact absurd this (Finset.notMem_empty _)
  · exact congrArg some (le_antisymm (h.2 _ h'.1) (h'.2 _ h.1))

theorem loop_visits {body : α → List (SOp α)} {S : Finset α} {o : Option α} {v : List α} {r : Option (Finset α)} (hv : Visits body S o v r) :
    ∀ {s : Nodes α} {it : It} (u : List α), s.WF → s.vals = S → Refers s it o →
      match r with
      | some T => ∃ s', s'.vals = T ∧ ∀ k, v.length < k → Nodes.loop ltOf body k it s u = .ok (u ++ v, s')
      | none => ∀ k, v.length < k → Nodes.loop ltOf body k it s u = .ub .badDeref := by
  induction hv with
  | done S =>
    intro s it u W hs hr
    refine ⟨s, hs, fun k hk => ?_⟩
    obtain ⟨k, rfl⟩ := Nat.exists_eq_succ_of_ne_zero (by simp at hk; omega : k ≠ 0)
    rw [Nodes.loop, if_pos (show it = .last from hr), List.append_nil]
  | lost S x hf hk =>
    intro s it u W hs hr k hlen
    obtain ⟨c, rfl, hm⟩ := hr
    subst hs
    obtain ⟨s', h1, W', -, -, hl⟩ := C88_exact s W x c hm (body x) hf
    obtain ⟨k, rfl⟩ := Nat.exists_eq_succ_of_ne_zero (by simp at hlen; omega : k ≠ 0)
    rw [Nodes.loop, if_neg (by simp), deref_refers W hm, Res.ok_bind, h1, Res.ok_bind, (hl hk).2]
    rfl
  | visit S x y v T hf hk hn hv ih =>
    intro s it u W hs hr
    obtain ⟨c, rfl, hm⟩ := hr
    subst hs
    obtain ⟨s', h1, W', h2, hl, -⟩ := C88_exact s W x c hm (body x) hf
    obtain ⟨-, it', o', i1, i2, i3⟩ := hl hk
    have e : o' = y := IsNext.unique i2 (by rw [h2]; exact hn)
    subst e
    have step : ∀ k, Nodes.loop ltOf body (k + 1) (.node c) s u = Nodes.loop ltOf body k it' s' (u ++ [x]) := fun k => by
      rw [Nodes.loop, if_neg (by simp), deref_refers W hm, Res.ok_bind, h1, Res.ok_bind, i1, Res.ok_bind]
    have I := ih (s := s') (it := it') (u ++ [x]) W' h2 i3
    cases T with
    | some T =>
      obtain ⟨t, e1, e2⟩ := I
      refine ⟨t, e1, fun k hlen => ?_⟩
      obtain ⟨k, rfl⟩ := Nat.exists_eq_succ_of_ne_zero (by simp at hlen; omega : k ≠ 0)
      rw [step, e2 k (by simp at hlen; omega)]
      simp
    | none =>
      intro k hlen
      obtain ⟨k, rfl⟩ := Nat.exists_eq_succ_of_ne_zero (by simp at hlen; omega : k ≠ 0)
      rw [step, I k (by simp at hlen; omega)]

/-- C88, loops over a set whose body changes the set: the elements visited are those of the specification (each next one is the next greater
element that is then in the set), and the loop is undefined exactly if a body erases the element it is at. -/
theorem C88_loop_partial (body : α → List (SOp α)) (s : Nodes α) (W : s.WF) (o : Option α) (ho : IsFirst s.vals o) (v : List α) :
    (∀ T, Visits body s.vals o v (some T) → ∃ s', s'.vals = T ∧ Returns (fun k => Nodes.loop ltOf body k s.begin s []) (v, s')) ∧
    (Visits body s.vals o v none → HitsUB (fun k => Nodes.loop ltOf body k s.begin s []) .badDeref) := by
  obtain ⟨o', h1, h2⟩ := begin_first W
  have e := IsFirst.unique h1 ho
  subst e
  constructor
  · intro T hv
    obtain ⟨s', a, b⟩ := loop_visits hv [] W rfl h2
    exact ⟨s', a, v.length + 1, fun k hk => by simpa using b k (by omega)⟩
  · intro hv
    exact ⟨v.length + 1, fun k hk => loop_visits hv [] W rfl h2 k (by omega)⟩

/-- Operations that do not touch what comes after `x`, nor `x` itself. -/
def Behind (x : α) : SOp α → Prop
  | .add e => e ≤ x
  | .remove e => e < x
  | .min | .max | .contains _ | .size => True
  | _ => False

theorem behind_run {x : α} : ∀ (ops : List (SOp α)) (S : Finset α), (∀ op ∈ ops, Behind x op) →
    SOp.FairRun S ops ∧ Keeps x S ops ∧ ∀ z, x < z → (z ∈ after S ops ↔ z ∈ S)
  | [], S, _ => ⟨trivial, trivial, fun _ _ => Iff.rfl⟩
  | op :: ops, S, h => by
    obtain ⟨a, b, c⟩ := behind_run ops (after S [op]) fun o ho => h o (List.mem_cons_of_mem _ ho)
    have hb := h op List.mem_cons_self
    have hop : op.Fair S ∧ ¬ Drops S x op ∧ ∀ z, x < z → (z ∈ after S [op] ↔ z ∈ S) := by
      unfold after
      simp only [SOp.absRun]
      cases op with
      | add e =>
        refine ⟨trivial, fun h => h, fun z hz => ?_⟩
        simp only [SOp.abs]
        split
        · next h => split at h
                    · cases h
                    · cases h
                      rw [Finset.mem_insert, or_iff_right (ne_of_gt (lt_of_le_of_lt hb hz))]
        · exact Iff.rfl
      | remove e =>
        refine ⟨trivial, ne_of_lt hb, fun z hz => ?_⟩
        simp only [SOp.abs, Finset.mem_erase]
        exact and_iff_right (ne_of_gt (lt_trans hb hz))
      | min => refine ⟨trivial, fun h => h, fun z hz => ?_⟩; simp only [SOp.abs]; split <;> (next h => split at h <;> cases h <;> exact Iff.rfl)
      | max => refine ⟨trivial, fun h => h, fun z hz => ?_⟩; simp only [SOp.abs]; split <;> (next h => split at h <;> cases h <;> exact Iff.rfl)
      | contains e => exact ⟨trivial, fun h => h, fun z hz => Iff.rfl⟩
      | size => exact ⟨trivial, fun h => h, fun z hz => Iff.rfl⟩
      | pop => exact absurd hb id
      | extend xs => exact absurd hb id
      | clear => exact absurd hb id
      | inter t => exact absurd hb id
      | union t => exact absurd hb id
      | diff t => exact absurd hb id
      | symDiff t => exact absurd hb id
    refine ⟨⟨hop.1, ?_⟩, ⟨hop.2.1, b⟩, fun z hz => ?_⟩
    · unfold after at a
      simp only [SOp.absRun] at a
      cases ha : op.abs S <;> rw [ha] at a <;> exact a
    · rw [after_cons, c z hz, hop.2.2 z hz]

theorem behind_visits {body : α → List (SOp α)} : ∀ (l : List α) (S : Finset α), l.Pairwise (· < ·) → (∀ x ∈ l, ∀ op ∈ body x, Behind x op) →
    (∀ z ∈ l, z ∈ S) → (∀ x, l.head? = some x → ∀ z ∈ S, x < z → z ∈ l) → ∃ T, Visits body S l.head? l (some T)
  | [], S, _, _, _, _ => ⟨S, .done S⟩
  | x :: l, S, hp, hb, hm, hc => by
    obtain ⟨a, b, c⟩ := behind_run (body x) S (hb x List.mem_cons_self)
    have hlt := (List.pairwise_cons.1 hp).1
    have hin : ∀ z, x < z → (z ∈ after S (body x) ↔ z ∈ l) := fun z hz => by
      rw [c z hz]
      refine ⟨fun h => ?_, fun h => hm z (List.mem_cons_of_mem _ h)⟩
      exact (List.mem_cons.1 (hc x rfl z h hz)).resolve_left (ne_of_gt hz)
    obtain ⟨T, hT⟩ := behind_visits l (after S (body x)) (List.pairwise_cons.1 hp).2 (fun y hy => hb y (List.mem_cons_of_mem _ hy))
      (fun z hz => (hin z (hlt z hz)).2 hz) fun y hy z hz hyz => (hin z (lt_trans (hlt y (List.mem_of_mem_head? hy)) hyz)).1 hz
    refine ⟨T, .visit S x l.head? l (some T) a b ?_ hT⟩
    cases l with
    | nil =>
      intro z hz
      by_contra h
      exact absurd ((hin z (not_le.1 h)).1 hz) List.not_mem_nil
    | cons y l =>
      refine ⟨(hin y (hlt y List.mem_cons_self)).2 List.mem_cons_self, hlt y List.mem_cons_self, fun z hz hxz => ?_⟩
      rcases List.mem_cons.1 ((hin z hxz).1 hz) with rfl | h
      · exact le_refl _
      · exact le_of_lt ((List.pairwise_cons.1 (List.pairwise_cons.1 hp).2).1 z h)

/-- C88: a loop whose bodies add and remove only behind the element they are at (or look at the set) visits exactly the elements the
set had at the beginning, in order. -/
theorem C88_behind (body : α → List (SOp α)) (s : Nodes α) (W : s.WF) (hb : ∀ x ∈ s.vals, ∀ op ∈ body x, Behind x op) :
    ∃ s', Returns (fun k => Nodes.loop ltOf body k s.begin s []) (s.s.map Prod.fst, s') := by
  have hi : (s.s.map Prod.fst).Pairwise (· < ·) := by
    have := W.inc
    unfold Increasing at this
    exact this.imp fun h => by simpa [ltOf] using h
  have hmem : ∀ z, z ∈ s.s.map Prod.fst ↔ z ∈ s.vals := fun z => by unfold Nodes.vals; rw [List.mem_toFinset]
  obtain ⟨T, hT⟩ := behind_visits (body := body) (s.s.map Prod.fst) s.vals hi (fun x hx => hb x ((hmem x).1 hx)) (fun z hz => (hmem z).1 hz)
    fun x _ z hz _ => (hmem z).2 hz
  have hf : IsFirst s.vals (s.s.map Prod.fst).head? := by
    unfold Nodes.vals
    revert hi
    cases s.s.map Prod.fst with
    | nil => exact fun _ => rfl
    | cons y l =>
      intro hi
      refine ⟨by simp, fun z hz => ?_⟩
      rcases List.mem_cons.1 (List.mem_toFinset.1 hz) with rfl | h
      · exact le_refl _
      · exact le_of_lt ((List.pairwise_cons.1 hi).1 z h)
  obtain ⟨s', -, h⟩ := (C88_loop_partial body s W _ hf _).1 T hT
  exact ⟨s', h⟩

/-- C88, the trap: a loop that removes the elements it visits is undefined on every set that is not empty. -/
theorem C88_remove_not (s : Nodes α) (W : s.WF) (hs : s.vals.Nonempty) :
    HitsUB (fun k => Nodes.loop ltOf (fun x => [.remove x]) k s.begin s []) .badDeref := by
  obtain ⟨o, ho, -⟩ := begin_first W
  cases o with
  | none => rw [show s.vals = ∅ from ho] at hs; exact absurd hs Finset.not_nonempty_empty
  | some x => exact (C88_loop_partial _ s W _ ho [x]).2 (.lost _ x ⟨trivial, trivial⟩ fun h => h.1 rfl)

/-- The set {1, 2}. -/
def two : Nodes ℤ := ⟨[(1, 0), (2, 1)], 2⟩

theorem two_wf : two.WF := ⟨by unfold Increasing; decide, by decide, by decide, by decide⟩

example : (1 : ℤ) ∈ two.vals ∧ (3 : ℤ) ∉ two.vals ∧ two.find ltOf 2 = .node 1 := by decide
example : ∀ x ∈ two.vals, ∀ op ∈ (fun x : ℤ => [SOp.add (x - 1), SOp.size]) x, Behind x op := by
  intro x _ op h
  rcases List.mem_cons.1 h with rfl | h
  · exact Int.sub_le_self x (by decide)
  · rw [List.mem_singleton.1 h]; trivial
/-- Adding before the element that is visited is met later. -/
example : Nodes.loop ltOf (fun x : ℤ => if x = 1 then [.add 5] else if x = 5 then [.remove 2] else [.pop]) 10 two.begin two [] =
    .ok ([1, 2, 5], ⟨[(5, 2)], 3⟩) := by decide +kernel
example : Nodes.loop ltOf (fun x : ℤ => if x = 2 then [.remove 2] else []) 10 two.begin two [] = .ub .badDeref := by decide +kernel

end PSet
end Pyincpp
