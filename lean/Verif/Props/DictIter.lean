import Verif.Model.DictIter
import Verif.Props.Reference
import Verif.Props.SetIter

/-! # C90: iterators into a `Dict` that is changed -/

namespace Pyincpp
namespace PDict

variable {K V : Type} [LinearOrder K]

/-- The operation erases the node of the key `k`. -/
def DropsKey (m : FMap K V) (k : K) : MOp K V → Prop
  | .remove k' => k' = k
  | .pop => ∀ k' ∈ m, k ≤ k'
  | .clear => True
  | _ => False

/-- The dictionary after operations. -/
def afterOps (m : FMap K V) (ops : List (MOp K V)) : FMap K V := (MOp.absRun m ops).2

/-- No operation of the sequence erases the node of `k`. -/
def KeepsKey (k : K) : FMap K V → List (MOp K V) → Prop
  | _, [] => True
  | m, op :: ops => ¬ DropsKey m k op ∧ KeepsKey k (afterOps m [op]) ops

/-- A loop over the dictionary, from the key `k` on, visits the pairs `v` and leaves the dictionary `t`, or (`none`) comes to an end because the
iterator has been lost. -/
inductive VisitsPairs (body : K × V → List (MOp K V)) : FMap K V → Option K → List (K × V) → Option (FMap K V) → Prop
  | done (m : FMap K V) : VisitsPairs body m none [] (some m)
  | lost (m : FMap K V) (k : K) (x : V) : m.lookup k = some x → MOp.FairRun m (body (k, x)) → ¬ KeepsKey k m (body (k, x)) →
      VisitsPairs body m (some k) [(k, x)] none
  | visit (m : FMap K V) (k : K) (x : V) (y : Option K) (v : List (K × V)) (t : Option (FMap K V)) : m.lookup k = some x →
      MOp.FairRun m (body (k, x)) → KeepsKey k m (body (k, x)) → PSet.IsNext (afterOps m (body (k, x))).keys k y →
      VisitsPairs body (afterOps m (body (k, x))) y v t → VisitsPairs body m (some k) ((k, x) :: v) t

/-! ## One step -/

variable {s s' : Nodes K V} {op : MOp K V} {m : FMap K V}

theorem Nodes.WF.pairsInc (W : s.WF) : Increasing kLt s.pairs := by
  have := W.inc
  unfold Increasing at this ⊢
  rw [Nodes.pairs, List.pairwise_map]
  exact this

omit [LinearOrder K] in
theorem pairs_map : s.pairs = s.d.map (Prod.map id Prod.snd) := rfl

theorem Nodes.WF.tree (W : s.WF) : s.tree.WF := by
  have hi := W.inc
  unfold Increasing at hi
  refine ⟨?_, ?_, ?_, ?_⟩
  · unfold Increasing Nodes.tree
    rw [List.pairwise_map, List.pairwise_map]
    exact hi
  · simpa [Nodes.tree] using W.len
  · rintro ⟨k, c⟩ h
    obtain ⟨⟨k', c', v⟩, h1, h2⟩ := List.mem_map.1 h
    cases h2
    exact W.below _ _ _ h1
  · unfold Nodes.tree
    simp only [List.map_map]
    have hn : s.d.Nodup := hi.imp (fun {a b} hab e => by subst e; simp [PDict.keyLt, ltOf] at hab)
    refine hn.map_on ?_
    rintro ⟨k, c, v⟩ h ⟨k', c', v'⟩ h' e
    simp only [Function.comp] at e
    subst e
    have := W.once _ _ _ _ _ h h'
    subst this
    have := key_unique W.inc h h'
    rw [Prod.ext_iff]; exact ⟨rfl, this⟩

omit [LinearOrder K] in
theorem mem_tree {k : K} {c : ℕ} : (k, c) ∈ s.tree.s ↔ ∃ v, (k, c, v) ∈ s.d := by
  unfold Nodes.tree; simp

theorem held_iff (h : Holds s.pairs m) {k : K} : k ∈ m ↔ ∃ p, (k, p) ∈ s.d := by
  rw [h.mem]
  constructor
  · rintro ⟨v, hv⟩
    obtain ⟨⟨k', p⟩, h1, h2⟩ := List.mem_map.1 hv
    cases h2
    exact ⟨p, h1⟩
  · rintro ⟨p, hp⟩
    exact ⟨p.2, List.mem_map.2 ⟨_, hp, rfl⟩⟩

theorem holds_keys (h : Holds s.pairs m) : s.tree.vals = m.keys := by
  ext k
  rw [PSet.mem_vals, Finmap.mem_keys, held_iff h]
  unfold Nodes.tree
  simp

omit [LinearOrder K] in
theorem mop_step {lt : K → K → Bool} {o : ROp K V} {q : MOp K (ℕ × V)} (h : o.mop lt s = .ok q) :
    o.step lt s = ((q.step lt s.d).1.conv (fun _ => ()), ⟨(q.step lt s.d).2, s.next + o.uses⟩) := by
  unfold ROp.step
  rw [h]
  simp only
  rcases q.step lt s.d with ⟨r, d⟩
  cases r <;> rfl

omit [LinearOrder K] in
theorem conv_conv {ρ σ τ : Type} (f : ρ → σ) (g : σ → τ) (r : Res ρ) : (r.conv f).conv g = r.conv (fun x => g (f x)) := by cases r <;> rfl

omit [LinearOrder K] in
theorem number_pairs : ∀ (n : ℕ) (xs : List (K × V)), (number n xs).map (Prod.map id Prod.snd) = xs
  | _, [] => rfl
  | n, (k, v) :: xs => by simp [number, number_pairs (n + 1) xs]

theorem change_mop {o : ROp K V} {q : MOp K (ℕ × V)} (h : o.mop ltOf s = .ok q) (hq : q.map id Prod.snd = op) :
    (o.step ltOf s).1 = (op.step ltOf s.pairs).1.conv (fun _ => ()) ∧ (o.step ltOf s).2.pairs = (op.step ltOf s.pairs).2 := by
  have H := step_map (lt := ltOf) (lt' := ltOf) (f := id) (g := (Prod.snd : ℕ × V → V)) (fun _ _ => rfl) q s.d
  rw [hq, ← pairs_map] at H
  rw [mop_step h, H]
  exact ⟨(conv_conv (MRet.map id Prod.snd) (fun _ => ()) (q.step ltOf s.d).1).symm, rfl⟩

/-- An operation does to the pairs what it does to a dictionary without numbers. -/
theorem change_step (W : s.WF) {o : ROp K V} (ho : change op = some o) :
    (o.step ltOf s).1 = (op.step ltOf s.pairs).1.conv (fun _ => ()) ∧ (o.step ltOf s).2.pairs = (op.step ltOf s.pairs).2 := by
  cases op with
  | add k v => cases ho; exact change_mop (q := .add k (s.next, v)) rfl rfl
  | remove k => cases ho; exact change_mop (q := .remove k) rfl rfl
  | pop => cases ho; exact change_mop (q := .pop) rfl rfl
  | clear => cases ho; exact change_mop (q := .clear) rfl rfl
  | extend xs => cases ho; exact change_mop (q := .extend (number s.next xs)) rfl (by simp only [MOp.map, number_pairs])
  | assign k v =>
    cases ho
    obtain ⟨m, hm⟩ := exists_map W.inc
    have hg := PDict.get_run W.inc hm k
    cases hl : m.lookup k with
    | some p =>
      rw [hl] at hg
      exact change_mop (q := .assign k (p.1, v)) (by simp only [ROp.mop, hg, Res.ok_bind, Res.pure_eq]) rfl
    | none =>
      rw [hl] at hg
      have e : (ROp.assign k v).step ltOf s = (.throw msgKey, s) := by
        simp only [ROp.step, ROp.mop, hg, Res.throw_bind]
      obtain ⟨m', hm'⟩ := exists_map W.pairsInc
      have H := dict_step (.assign k v) s.pairs m' W.pairsInc (by simpa [Nodes.pairs] using W.len) hm' trivial
      have hn : k ∉ m' := by
        rw [hm'.mem]
        rintro ⟨w, hw⟩
        obtain ⟨⟨k', c, w'⟩, h1, h2⟩ := List.mem_map.1 hw
        cases h2
        rw [hm, hl] at h1
        cases h1
      simp only [MOp.abs, if_neg hn] at H
      rw [e, H]
      exact ⟨rfl, rfl⟩
  | get k => cases ho
  | getOr k v => cases ho
  | contains k => cases ho
  | size => cases ho

theorem foldl_keys : ∀ (xs : List (K × V)) (m : FMap K V), (xs.foldl FMap.addNew m).keys = m.keys ∪ (xs.map Prod.fst).toFinset
  | [], m => by simp
  | p :: xs, m => by
    rw [List.foldl_cons, foldl_keys xs]
    ext a
    unfold FMap.addNew
    split
    · rename_i h
      simp only [Finset.mem_union, Finmap.mem_keys, List.map_cons, List.toFinset_cons, Finset.mem_insert]
      constructor
      · rintro (h1 | h1)
        · exact .inl h1
        · exact .inr (.inr h1)
      · rintro (h1 | rfl | h1)
        · exact .inl h1
        · exact .inl h
        · exact .inr h1
    · simp only [Finset.mem_union, Finmap.mem_keys, Finmap.mem_insert, List.map_cons, List.toFinset_cons, Finset.mem_insert]
      tauto

omit [LinearOrder K] in
theorem number_keys : ∀ (n : ℕ) (xs : List (K × V)), (number n xs).map Prod.fst = xs.map Prod.fst
  | _, [] => rfl
  | n, (k, v) :: xs => by simp [number, number_keys (n + 1) xs]

/-- What an operation does to the nodes. -/
structure Moves (s : Nodes K V) (m : FMap K V) (op : MOp K V) (s' : Nodes K V) : Prop where
  keep : ∀ p ∈ s.tree.s, ¬ DropsKey m p.1 op → p ∈ s'.tree.s
  drop : ∀ p ∈ s.tree.s, DropsKey m p.1 op → p ∉ s'.tree.s
  origin : ∀ p ∈ s'.tree.s, p ∈ s.tree.s ∨ s.next ≤ p.2
  mono : s.next ≤ s'.next

theorem drops_iff (W : s.WF) (h : Holds s.pairs m) {o : ROp K V} (ho : change op = some o) {k : K} {c : ℕ} (hk : (k, c) ∈ s.tree.s) :
    o.Drops s k ↔ DropsKey m k op := by
  cases op with
  | pop =>
    cases ho
    show s.d.head?.map Prod.fst = some k ↔ ∀ k' ∈ m, k ≤ k'
    have hm : ∀ k', k' ∈ m ↔ ∃ p, (k', p) ∈ s.d := fun k' => held_iff h
    obtain ⟨v, hv⟩ := mem_tree.1 hk
    have hi := W.inc
    cases hd : s.d with
    | nil => rw [hd] at hv; cases hv
    | cons p ps =>
      rw [hd] at hv hi hm
      rw [Increasing.cons] at hi
      simp only [List.head?_cons, Option.map_some, Option.some.injEq]
      constructor
      · rintro rfl k' hk'
        obtain ⟨q, hq⟩ := (hm k').1 hk'
        rcases List.mem_cons.1 hq with rfl | hq
        · exact le_rfl
        · have := hi.1 _ hq
          simp only [PDict.keyLt, ltOf, decide_eq_true_eq] at this
          exact this.le
      · intro hall
        rcases List.mem_cons.1 hv with rfl | hq
        · rfl
        · have := hi.1 _ hq
          simp only [PDict.keyLt, ltOf, decide_eq_true_eq] at this
          exact absurd (hall p.1 ((hm _).2 ⟨p.2, by simp⟩)) (not_le.2 this)
  | add k v => cases ho; exact Iff.rfl
  | remove k => cases ho; exact Iff.rfl
  | clear => cases ho; exact Iff.rfl
  | extend xs => cases ho; exact Iff.rfl
  | assign k v => cases ho; exact Iff.rfl
  | get k => cases ho
  | getOr k v => cases ho
  | contains k => cases ho
  | size => cases ho

/-- One operation against the abstract dictionary. -/
theorem iter_step_ok (W : s.WF) (h : Holds s.pairs m) (hf : op.Fair m) : ∃ s', s'.WF ∧ Moves s m op s' ∧ Holds s'.pairs (afterOps m [op]) ∧
    (s.step ltOf op = (.ok (), s') ∨ ∃ e, s.step ltOf op = (.throw e, s')) := by
  have hlen : s.pairs.length ≤ maxLen := by simpa [Nodes.pairs] using W.len
  have H := dict_step op s.pairs m W.pairsInc hlen h hf
  have key : ∃ r d', op.step ltOf s.pairs = (r, d') ∧ Holds d' (afterOps m [op]) ∧ ((∃ x, r = .ok x) ∨ ∃ e, r = .throw e) := by
    unfold afterOps
    rw [MOp.absRun]
    cases ha : op.abs m with
    | ok rf =>
      rw [ha] at H
      obtain ⟨d', h1, -, -, h4⟩ := H
      exact ⟨_, d', h1, h4, .inl ⟨_, rfl⟩⟩
    | error e =>
      rw [ha] at H
      exact ⟨_, _, H, h, .inr ⟨e, rfl⟩⟩
  obtain ⟨r, d', e, h1, h2⟩ := key
  unfold Nodes.step
  cases ho : change op with
  | some o =>
    obtain ⟨c1, c2⟩ := change_step W ho
    have S : StepOk o s (o.step ltOf s).2 := by
      refine step_fair W o fun xs eo m' hm' => ?_
      subst eo
      have eop : op = .extend xs := by cases op <;> simp [change] at ho; rw [ho]
      subst eop
      have hf' : (xs.foldl FMap.addNew m).keys.card ≤ maxLen := hf
      rw [foldl_keys] at hf' ⊢
      have hk : m'.keys = m.keys := by
        ext k
        rw [Finmap.mem_keys, Finmap.mem_keys, hm'.mem, held_iff h]
      rw [number_keys, hk]
      exact hf'
    refine ⟨(o.step ltOf s).2, S.wf, ⟨?_, ?_, ?_, S.mono⟩, by rw [c2, e]; exact h1, ?_⟩
    · rintro ⟨k, c⟩ hp hd
      obtain ⟨v, hv⟩ := mem_tree.1 hp
      exact mem_tree.2 ⟨_, S.keep k c v hv fun hx => hd ((drops_iff W h ho hp).1 hx)⟩
    · rintro ⟨k, c⟩ hp hd hq
      obtain ⟨v, hv⟩ := mem_tree.1 hp
      obtain ⟨w, hw⟩ := mem_tree.1 hq
      exact S.drop k c v hv ((drops_iff W h ho hp).2 hd) _ _ hw
    · rintro ⟨k, c⟩ hq
      obtain ⟨w, hw⟩ := mem_tree.1 hq
      rcases Nat.lt_or_ge c s.next with hc | hc
      · exact .inl (mem_tree.2 (S.old _ _ _ hw hc))
      · exact .inr hc
    · rw [e] at c1
      simp only
      rcases h2 with ⟨x, rfl⟩ | ⟨er, rfl⟩
      · exact .inl (Prod.ext c1 rfl)
      · exact .inr ⟨er, Prod.ext c1 rfl⟩
  | none =>
    have hs : afterOps m [op] = m := by
      unfold afterOps
      rw [MOp.absRun]
      cases op <;> simp only [change, reduceCtorEq] at ho <;> simp only [MOp.abs]
      all_goals try rfl
      split <;> (next hh => split at hh <;> cases hh <;> rfl)
    have hd : ∀ k, ¬ DropsKey m k op := by cases op <;> simp only [change, reduceCtorEq] at ho <;> exact fun _ h => h
    refine ⟨s, W, ⟨fun p hp _ => hp, fun p _ hx => absurd hx (hd _), fun p hp => .inl hp, le_rfl⟩, by rw [hs]; exact h, ?_⟩
    rw [e]
    rcases h2 with ⟨x, rfl⟩ | ⟨er, rfl⟩
    · exact .inl rfl
    · exact .inr ⟨er, rfl⟩

theorem afterOps_cons (m : FMap K V) (op : MOp K V) (ops : List (MOp K V)) : afterOps m (op :: ops) = afterOps (afterOps m [op]) ops := by
  unfold afterOps
  simp only [MOp.absRun]
  cases op.abs m <;> rfl

theorem fairRun_cons {ops : List (MOp K V)} (h : MOp.FairRun m (op :: ops)) : op.Fair m ∧ MOp.FairRun (afterOps m [op]) ops := by
  refine ⟨h.1, ?_⟩
  have := h.2
  unfold afterOps
  simp only [MOp.absRun]
  cases ha : op.abs m <;> rw [ha] at this <;> exact this

/-- Operations against the abstract dictionary, and what happens to a node. -/
theorem iter_run_ok (ops : List (MOp K V)) : ∀ {s : Nodes K V} {m : FMap K V}, s.WF → Holds s.pairs m → MOp.FairRun m ops →
    ∃ s', s.run ltOf ops = .ok s' ∧ s'.WF ∧ Holds s'.pairs (afterOps m ops) ∧ s.next ≤ s'.next ∧
      (∀ p ∈ s.tree.s, KeepsKey p.1 m ops → p ∈ s'.tree.s) ∧ (∀ p ∈ s.tree.s, ¬ KeepsKey p.1 m ops → p ∉ s'.tree.s) ∧
      ∀ p ∈ s'.tree.s, p ∈ s.tree.s ∨ s.next ≤ p.2 := by
  induction ops with
  | nil => intro s m W h _; exact ⟨s, rfl, W, h, le_rfl, fun p hp _ => hp, fun p _ h => absurd trivial h, fun p hp => .inl hp⟩
  | cons op ops ih =>
    intro s m W h hf
    obtain ⟨f1, f2⟩ := fairRun_cons hf
    obtain ⟨s1, W1, M, hv, hs⟩ := iter_step_ok W h f1
    obtain ⟨s', r1, W', v', n', k', d', o'⟩ := ih W1 hv f2
    refine ⟨s', ?_, W', by rw [afterOps_cons]; exact v', M.mono.trans n', fun p hp hk => k' p (M.keep p hp hk.1) hk.2, fun p hp hk => ?_, fun p hp => ?_⟩
    · unfold Nodes.run
      rcases hs with hs | ⟨e, hs⟩ <;> rw [hs] <;> exact r1
    · by_cases hd : DropsKey m p.1 op
      · intro hq
        rcases o' p hq with h1 | h1
        · exact M.drop p hp hd h1
        · have := W.tree.below p hp
          have := M.mono
          simp only [Nodes.tree] at *
          omega
      · exact d' p (M.keep p hp hd) fun hx => hk ⟨hd, hx⟩
    · rcases o' p hp with h1 | h1
      · exact M.origin p h1
      · exact .inr (M.mono.trans h1)

/-! ## Iterators -/

/-- The iterator `it` refers to the pair of the key `o` (or is the end). -/
def RefersTo (s : Nodes K V) (it : PSet.It) (o : Option K) : Prop := PSet.Refers s.tree it o

theorem deref_node (W : s.WF) (h : Holds s.pairs m) {k : K} {c : ℕ} (hk : (k, c) ∈ s.tree.s) :
    ∃ v, m.lookup k = some v ∧ s.deref (.node c) = .ok (k, v) := by
  obtain ⟨v, hv⟩ := mem_tree.1 hk
  refine ⟨v, (h k v).1 (List.mem_map.2 ⟨_, hv, rfl⟩), ?_⟩
  simp only [Nodes.deref]
  rw [find_node W hv]

omit [LinearOrder K] in
theorem deref_lost {c : ℕ} (h : ∀ p ∈ s.tree.s, p.2 ≠ c) : s.deref (.node c) = .ub .badDeref := by
  simp only [Nodes.deref]
  rw [show s.d.find? (fun p => p.2.1 == c) = none from List.find?_eq_none.2 fun p hp => by
    have := h (p.1, p.2.1) (mem_tree.2 ⟨p.2.2, hp⟩)
    simpa using this]

/-- C90: an iterator to the pair of the key `k` can be used after any operations exactly when none of them has erased the pair. It still
refers to the pair, with the value it has then, and the next pair is that of the next greater key that is held then. -/
theorem C90_exact (s : Nodes K V) (W : s.WF) (m : FMap K V) (h : Holds s.pairs m) (k : K) (c : ℕ) (hk : RefersTo s (.node c) (some k))
    (ops : List (MOp K V)) (hf : MOp.FairRun m ops) :
    ∃ s', s.run ltOf ops = .ok s' ∧ s'.WF ∧ Holds s'.pairs (MOp.absRun m ops).2 ∧
      (KeepsKey k m ops → RefersTo s' (.node c) (some k) ∧ (∃ v, (MOp.absRun m ops).2.lookup k = some v ∧ s'.deref (.node c) = .ok (k, v)) ∧
        ∃ it o, s'.inc (.node c) = .ok it ∧ PSet.IsNext (MOp.absRun m ops).2.keys k o ∧ RefersTo s' it o) ∧
      (¬ KeepsKey k m ops → s'.deref (.node c) = .ub .badDeref ∧ s'.inc (.node c) = .ub .badDeref) := by
  obtain ⟨c', hc', hm⟩ := hk
  cases hc'
  obtain ⟨s', h1, W', h2, -, h4, h5, h6⟩ := iter_run_ok ops W h hf
  refine ⟨s', h1, W', h2, fun hk => ?_, fun hk => ?_⟩
  · have hm' := h4 _ hm hk
    refine ⟨⟨c, rfl, hm'⟩, deref_node W' h2 hm', ?_⟩
    obtain ⟨it, o, a, b, d⟩ := PSet.inc_next W'.tree hm'
    rw [holds_keys h2] at b
    exact ⟨it, o, a, b, d⟩
  · have hl : ∀ p ∈ s'.tree.s, p.2 ≠ c := fun p hp e => by
      rcases h6 p hp with hq | hq
      · exact h5 _ hm hk (PSet.WF.node W.tree hq hm e ▸ hp)
      · have := W.tree.below _ hm
        simp only [Nodes.tree] at this
        omega
    exact ⟨deref_lost hl, (PSet.lost_node hl).2⟩

/-- C90: `begin()` refers to the pair with the least key. -/
theorem C90_begin (s : Nodes K V) (W : s.WF) (m : FMap K V) (h : Holds s.pairs m) : ∃ o, PSet.IsFirst m.keys o ∧ RefersTo s s.begin o := by
  obtain ⟨o, h1, h2⟩ := PSet.begin_first W.tree
  rw [holds_keys h] at h1
  exact ⟨o, h1, h2⟩

/-- C90: `find(k)` refers to the pair of `k` if it is held, and is the end otherwise. -/
theorem C90_find (s : Nodes K V) (W : s.WF) (m : FMap K V) (h : Holds s.pairs m) (k : K) :
    (k ∈ m → RefersTo s (s.find ltOf k) (some k)) ∧ (k ∉ m → RefersTo s (s.find ltOf k) none) := by
  have := PSet.C88_find s.tree W.tree k
  rw [holds_keys h, Finmap.mem_keys] at this
  exact this

theorem loop_pairs {body : K × V → List (MOp K V)} {m : FMap K V} {o : Option K} {v : List (K × V)} {r : Option (FMap K V)}
    (hv : VisitsPairs body m o v r) : ∀ {s : Nodes K V} {it : PSet.It} (u : List (K × V)), s.WF → Holds s.pairs m → RefersTo s it o →
      match r with
      | some t => ∃ s', s'.WF ∧ Holds s'.pairs t ∧ ∀ j, v.length < j → Nodes.loop ltOf body j it s u = .ok (u ++ v, s')
      | none => ∀ j, v.length < j → Nodes.loop ltOf body j it s u = .ub .badDeref := by
  induction hv with
  | done m =>
    intro s it u W hs hr
    refine ⟨s, W, hs, fun j hj => ?_⟩
    obtain ⟨j, rfl⟩ := Nat.exists_eq_succ_of_ne_zero (by simp at hj; omega : j ≠ 0)
    rw [Nodes.loop, if_pos (show it = .last from hr), List.append_nil]
  | lost m k x hx hf hk =>
    intro s it u W hs hr j hj
    obtain ⟨c, rfl, hm⟩ := hr
    obtain ⟨x', hx', hd⟩ := deref_node W hs hm
    rw [hx] at hx'
    cases hx'
    obtain ⟨s', h1, -, -, -, hl⟩ := C90_exact s W m hs k c ⟨c, rfl, hm⟩ (body (k, x)) hf
    obtain ⟨j, rfl⟩ := Nat.exists_eq_succ_of_ne_zero (by simp at hj; omega : j ≠ 0)
    rw [Nodes.loop, if_neg (by simp), hd, Res.ok_bind, h1, Res.ok_bind, (hl hk).2]
    rfl
  | visit m k x y v t hx hf hk hn hv ih =>
    intro s it u W hs hr
    obtain ⟨c, rfl, hm⟩ := hr
    obtain ⟨x', hx', hd⟩ := deref_node W hs hm
    rw [hx] at hx'
    cases hx'
    obtain ⟨s', h1, W', h2, hl, -⟩ := C90_exact s W m hs k c ⟨c, rfl, hm⟩ (body (k, x)) hf
    obtain ⟨-, -, it', o', i1, i2, i3⟩ := hl hk
    have e : o' = y := PSet.IsNext.unique i2 hn
    subst e
    have step : ∀ j, Nodes.loop ltOf body (j + 1) (.node c) s u = Nodes.loop ltOf body j it' s' (u ++ [(k, x)]) := fun j => by
      rw [Nodes.loop, if_neg (by simp), hd, Res.ok_bind, h1, Res.ok_bind, i1, Res.ok_bind]
    have I := ih (s := s') (it := it') (u ++ [(k, x)]) W' h2 i3
    cases t with
    | some t =>
      obtain ⟨t', e0, e1, e2⟩ := I
      refine ⟨t', e0, e1, fun j hj => ?_⟩
      obtain ⟨j, rfl⟩ := Nat.exists_eq_succ_of_ne_zero (by simp at hj; omega : j ≠ 0)
      rw [step, e2 j (by simp at hj; omega)]
      simp
    | none =>
      intro j hj
      obtain ⟨j, rfl⟩ := Nat.exists_eq_succ_of_ne_zero (by simp at hj; omega : j ≠ 0)
      rw [step, I j (by simp at hj; omega)]

/-- C90, loops over a dictionary whose body changes the dictionary: the pairs visited are those of the specification (each next one is that of
the next greater key that is then held, with the value it then has), and the loop is undefined exactly if a body erases the pair it is at. -/
theorem C90_loop_partial (body : K × V → List (MOp K V)) (s : Nodes K V) (W : s.WF) (m : FMap K V) (h : Holds s.pairs m) (o : Option K)
    (ho : PSet.IsFirst m.keys o) (v : List (K × V)) :
    (∀ t, VisitsPairs body m o v (some t) → ∃ s', Holds s'.pairs t ∧ Returns (fun j => Nodes.loop ltOf body j s.begin s []) (v, s')) ∧
    (VisitsPairs body m o v none → HitsUB (fun j => Nodes.loop ltOf body j s.begin s []) .badDeref) := by
  obtain ⟨o', h1, h2⟩ := C90_begin s W m h
  have e := PSet.IsFirst.unique h1 ho
  subst e
  constructor
  · intro t hv
    obtain ⟨s', -, a, b⟩ := loop_pairs hv [] W h h2
    exact ⟨s', a, v.length + 1, fun j hj => by simpa using b j (by omega)⟩
  · intro hv
    exact ⟨v.length + 1, fun j hj => loop_pairs hv [] W h h2 j (by omega)⟩

/-- C90, the trap: a loop that removes the pairs it visits is undefined on every dictionary that is not empty. -/
theorem C90_remove_not (s : Nodes K V) (W : s.WF) (hs : s.pairs ≠ []) :
    HitsUB (fun j => Nodes.loop ltOf (fun p => [.remove p.1]) j s.begin s []) .badDeref := by
  obtain ⟨m, h⟩ := exists_map W.pairsInc
  obtain ⟨o, ho, -⟩ := C90_begin s W m h
  cases o with
  | none =>
    obtain ⟨p, hp⟩ := List.exists_mem_of_ne_nil _ hs
    have : p.1 ∈ m.keys := by rw [Finmap.mem_keys, h.mem]; exact ⟨p.2, hp⟩
    rw [show m.keys = ∅ from ho] at this
    exact absurd this (Finset.notMem_empty _)
  | some k =>
    obtain ⟨x, hx⟩ := Option.isSome_iff_exists.1 (Finmap.lookup_isSome.2 (Finmap.mem_keys.1 ho.1))
    exact (C90_loop_partial _ s W m h _ ho [(k, x)]).2 (.lost _ k x hx ⟨trivial, trivial⟩ fun h => h.1 rfl)

theorem increasing_swap {l1 l2 : List (K × V)} {k : K} {v w : V} (hi : Increasing kLt (l1 ++ (k, v) :: l2)) :
    Increasing kLt (l1 ++ (k, w) :: l2) := by
  unfold Increasing at *
  rw [List.pairwise_append, List.pairwise_cons] at *
  exact ⟨hi.1, hi.2.1, fun a ha b hb => by
    rcases List.mem_cons.1 hb with rfl | hb
    · exact hi.2.2 a ha (k, v) List.mem_cons_self
    · exact hi.2.2 a ha b (List.mem_cons_of_mem _ hb)⟩

theorem update_visits (f : K × V → V) : ∀ (l2 l1 : List (K × V)) (m : FMap K V), Increasing kLt (l1 ++ l2) → Holds (l1 ++ l2) m →
    ∃ t, VisitsPairs (fun p => [.assign p.1 (f p)]) m (l2.head?.map Prod.fst) l2 (some t) ∧ Holds (l1 ++ l2.map fun p => (p.1, f p)) t
  | [], l1, m, _, h => ⟨m, .done m, by simpa using h⟩
  | (k, v) :: l2, l1, m, hi, h => by
    have hl : m.lookup k = some v := (h k v).1 (by simp)
    have hk : k ∈ m := Finmap.lookup_isSome.1 (by rw [hl]; rfl)
    have ha : afterOps m [.assign k (f (k, v))] = m.insert k (f (k, v)) := by
      unfold afterOps
      simp only [MOp.absRun, MOp.abs, if_pos hk]
    have hi' : Increasing kLt (l1 ++ (k, f (k, v)) :: l2) := increasing_swap hi
    have h' : Holds (l1 ++ (k, f (k, v)) :: l2) (m.insert k (f (k, v))) := by
      intro k' v'
      by_cases e : k' = k
      · subst e
        rw [Finmap.lookup_insert]
        constructor
        · intro hx; rw [key_unique hi' hx (show (k', f (k', v)) ∈ _ by simp)]
        · intro hx; cases hx; simp
      · rw [Finmap.lookup_insert_of_ne _ e, ← h k' v']
        simp [e]
    have e0 : l1 ++ (k, f (k, v)) :: l2 = (l1 ++ [(k, f (k, v))]) ++ l2 := by simp
    rw [e0] at hi' h'
    obtain ⟨t, ht, hh⟩ := update_visits f l2 (l1 ++ [(k, f (k, v))]) _ hi' h'
    refine ⟨t, ?_, by simpa using hh⟩
    refine .visit m k v (l2.head?.map Prod.fst) l2 (some t) hl ⟨trivial, by simp [MOp.abs, hk, MOp.FairRun]⟩ ⟨fun h => h, trivial⟩ ?_ ?_
    · show PSet.IsNext (afterOps m [.assign k (f (k, v))]).keys k _
      rw [ha]
      have hmem : ∀ z, z ∈ (m.insert k (f (k, v))).keys → z ≤ k ∨ ∃ q ∈ l2, q.1 = z := fun z hz => by
        rw [Finmap.mem_keys, h'.mem] at hz
        obtain ⟨w, hw⟩ := hz
        rw [← e0, List.mem_append, List.mem_cons] at hw
        rw [← e0] at hi'
        rcases hw with hw | hw | hw
        · have := (List.pairwise_append.1 hi').2.2 _ hw _ List.mem_cons_self
          simp only [PDict.keyLt, ltOf, decide_eq_true_eq] at this
          exact .inl this.le
        · cases hw; exact .inl le_rfl
        · exact .inr ⟨_, hw, rfl⟩
      rw [← e0] at hi'
      have hgt := (List.pairwise_append.1 hi').2.1
      rw [List.pairwise_cons] at hgt
      cases l2 with
      | nil =>
        intro z hz
        rcases hmem z hz with hq | ⟨q, hq, -⟩
        · exact hq
        · cases hq
      | cons q l2 =>
        have hq := hgt.1 q List.mem_cons_self
        simp only [PDict.keyLt, ltOf, decide_eq_true_eq] at hq
        refine ⟨?_, hq, fun z hz hkz => ?_⟩
        · rw [Finmap.mem_keys, h'.mem]; exact ⟨q.2, by simp⟩
        · rcases hmem z hz with hx | ⟨r, hr, rfl⟩
          · exact absurd hkz (not_lt.2 hx)
          · rcases List.mem_cons.1 hr with rfl | hr
            · exact le_rfl
            · have := (List.pairwise_cons.1 hgt.2).1 r hr
              simp only [PDict.keyLt, ltOf, decide_eq_true_eq] at this
              exact this.le
    · show VisitsPairs _ (afterOps m [.assign k (f (k, v))]) _ l2 (some t)
      rw [ha]
      exact ht

theorem increasing_members {l l' : List (K × V)} (h : Increasing kLt l) (h' : Increasing kLt l') (hm : ∀ p, p ∈ l ↔ p ∈ l') : l = l' := by
  have nd : ∀ {l : List (K × V)}, Increasing kLt l → l.Nodup := fun h => h.imp (fun {a b} hab e => by subst e; simp [PDict.keyLt, ltOf] at hab)
  refine List.Perm.eq_of_pairwise (le := fun a b => kLt a b = true) ?_ h h' ((List.perm_ext_iff_of_nodup (nd h) (nd h')).2 hm)
  intro a b _ _ h1 h2
  simp only [PDict.keyLt, ltOf, decide_eq_true_eq] at h1 h2
  exact absurd h1 (not_lt.2 h2.le)

/-- C90: `for (const auto& [k, v] : d) d[k] = f(k, v);` is defined, visits every pair once, in order, with its old value, and leaves the new values. -/
theorem C90_update (f : K × V → V) (s : Nodes K V) (W : s.WF) :
    ∃ s', s'.pairs = s.pairs.map (fun p => (p.1, f p)) ∧
      Returns (fun j => Nodes.loop ltOf (fun p => [.assign p.1 (f p)]) j s.begin s []) (s.pairs, s') := by
  obtain ⟨m, h⟩ := exists_map W.pairsInc
  obtain ⟨t, hv, ht⟩ := update_visits f s.pairs [] m W.pairsInc h
  have hf : RefersTo s s.begin (s.pairs.head?.map Prod.fst) := by
    show PSet.Refers s.tree s.tree.begin _
    unfold PSet.Nodes.begin Nodes.tree Nodes.pairs
    cases s.d with
    | nil => rfl
    | cons p ps => exact ⟨_, rfl, by simp⟩
  obtain ⟨s', W', a, b⟩ := loop_pairs hv [] W h hf
  refine ⟨s', increasing_members W'.pairsInc ?_ fun p => ?_, s.pairs.length + 1, fun j hj => by simpa using b j (by omega)⟩
  · have := W.pairsInc
    unfold Increasing at *
    rw [List.pairwise_map]
    exact this
  · rw [show p ∈ s'.pairs ↔ _ from a p.1 p.2]
    exact (ht p.1 p.2).symm

/-- The dictionary `{1: "a", 3: "b"}` meets the hypotheses. -/
example : refExample.pairs = [(1, "a"), (3, "b")] ∧ refExample.begin = .node 0 ∧ refExample.find ltOf 3 = .node 1 ∧ refExample.find ltOf 2 = .last := by
  decide +kernel
/-- A loop that adds, assigns and removes other pairs. -/
example : (Nodes.loop ltOf (fun p : ℕ × String => if p.1 = 1 then [.add 2 "c", .assign 3 "d"] else if p.1 = 2 then [.remove 1, .add 1 "x"] else [.size])
    10 refExample.begin refExample [] >>= fun r => .ok (r.1, r.2.pairs)) = .ok ([(1, "a"), (2, "c"), (3, "d")], [(1, "x"), (2, "c"), (3, "d")]) := by
  decide +kernel
example : (Nodes.loop ltOf (fun p : ℕ × String => if p.1 = 1 then [.clear] else []) 10 refExample.begin refExample [] >>= fun r => .ok r.1) = .ub .badDeref := by
  decide +kernel

end PDict
end Pyincpp
