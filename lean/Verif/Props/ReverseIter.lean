import Verif.Model.ReverseIter
import Verif.Props.DictIter

/-! # C91: reverse loops over a `Set` or `Dict` that is changed -/

namespace Pyincpp
namespace PSet

variable {α : Type} [LinearOrder α]

/-- `z` comes before the place `b` (`none` is the end). -/
def Below (z : α) : Option α → Prop
  | none => True
  | some y => z < y

/-- `x` is the element of the set that comes last before the place `b`, if there is one. -/
def IsPrev (S : Finset α) (b : Option α) : Option α → Prop
  | none => ∀ z ∈ S, ¬ Below z b
  | some x => x ∈ S ∧ Below x b ∧ ∀ z ∈ S, Below z b → z ≤ x

/-- No operation of the sequence erases what is at the place `b`. -/
def KeepsPlace (b : Option α) (S : Finset α) (ops : List (SOp α)) : Prop := ∀ y, b = some y → Keeps y S ops

/-- A reverse loop over the set, from the place `b` on: the elements visited, and the set it leaves, or what makes it undefined: the place
has been lost, or (`badRange`) there is nothing before it any more. -/
inductive VisitsBack (body : α → List (SOp α)) : Finset α → Option α → List α → Except UB (Finset α) → Prop
  | done (S : Finset α) (b : Option α) : IsPrev S b none → VisitsBack body S b [] (.ok S)
  | lost (S : Finset α) (b : Option α) (x : α) : IsPrev S b (some x) → SOp.FairRun S (body x) → ¬ KeepsPlace b S (body x) →
      VisitsBack body S b [x] (.error .badDeref)
  | front (S : Finset α) (b : Option α) (x : α) : IsPrev S b (some x) → SOp.FairRun S (body x) → KeepsPlace b S (body x) →
      IsPrev (after S (body x)) b none → VisitsBack body S b [x] (.error .badRange)
  | visit (S : Finset α) (b : Option α) (x y : α) (v : List α) (r : Except UB (Finset α)) : IsPrev S b (some x) → SOp.FairRun S (body x) →
      KeepsPlace b S (body x) → IsPrev (after S (body x)) b (some y) → VisitsBack body (after S (body x)) (some y) v r →
      VisitsBack body S b (x :: v) r

/-! ## Going backward -/

variable {s s' : Nodes α}

omit [LinearOrder α] in
theorem final_eq : ∀ (a : List (α × ℕ)) (p : α × ℕ), It.final (a ++ [p]) = .ok (.node p.2)
  | [], _ => rfl
  | [_], _ => rfl
  | _ :: r :: a, p => final_eq (r :: a) p

omit [LinearOrder α] in
theorem beforeIn_eq {c : ℕ} : ∀ (a : List (α × ℕ)) (p q r : α × ℕ) (b : List (α × ℕ)), p :: a = b ++ [q] → (∀ t ∈ a, t.2 ≠ c) → r.2 = c →
    ∀ d, It.beforeIn c p (a ++ r :: d) = .ok (.node q.2)
  | [], p, q, r, b, e, _, hr, d => by
    have : p = q := by
      cases b with
      | nil => simpa using e
      | cons x b => simp at e
    subst this
    show (if r.2 == c then Res.ok (It.node p.2) else _) = _
    rw [if_pos (by simpa using hr)]
  | x :: a, p, q, r, b, e, ha, hr, d => by
    show (if x.2 == c then Res.ok (It.node p.2) else It.beforeIn c x (a ++ r :: d)) = _
    rw [if_neg (by simpa using ha x List.mem_cons_self)]
    cases b with
    | nil => simp at e
    | cons y b =>
      exact beforeIn_eq a x q r b (by simpa using (List.cons.inj e).2) (fun t ht => ha t (List.mem_cons_of_mem _ ht)) hr d

omit [LinearOrder α] in
theorem beforeIn_none (c : ℕ) : ∀ (l : List (α × ℕ)) (p : α × ℕ), (∀ q ∈ l, q.2 ≠ c) → It.beforeIn c p l = .ub .badDeref
  | [], _, _ => rfl
  | q :: l, p, h => by
    show (if q.2 == c then _ else _) = _
    rw [if_neg (by simpa using h q List.mem_cons_self)]
    exact beforeIn_none c l q fun t ht => h t (List.mem_cons_of_mem _ ht)

omit [LinearOrder α] in
theorem before_none (c : ℕ) (l : List (α × ℕ)) (h : ∀ q ∈ l, q.2 ≠ c) : It.before c l = .ub .badDeref := by
  cases l with
  | nil => rfl
  | cons p l =>
    show (if p.2 == c then _ else _) = _
    rw [if_neg (by simpa using h p List.mem_cons_self)]
    exact beforeIn_none c l p fun t ht => h t (List.mem_cons_of_mem _ ht)

/-- Where the place `b` is in the list of nodes. -/
theorem place_split (W : s.WF) {it : It} {b : Option α} (h : Refers s it b) : ∃ l d, s.s = l ++ d ∧ it = It.first d ∧ (∀ p ∈ l, Below p.1 b) ∧
    (∀ p ∈ d, ¬ Below p.1 b) ∧ s.dec it = (match l.getLast? with | some p => .ok (.node p.2) | none => .ub .badRange) := by
  have hi := wf_keyInc W
  cases b with
  | none =>
    refine ⟨s.s, [], by simp, h, fun _ _ => trivial, fun p hp => absurd hp List.not_mem_nil, ?_⟩
    rw [show it = .last from h]
    show It.final s.s = _
    rcases List.eq_nil_or_concat s.s with e | ⟨a, p, e⟩
    · rw [e]; rfl
    · rw [e, List.concat_eq_append, final_eq, List.getLast?_concat]
  | some y =>
    obtain ⟨c, rfl, hm⟩ := h
    obtain ⟨a, d, e⟩ := List.append_of_mem hm
    rw [e] at hi
    have hlt : ∀ q ∈ a, q.1 < y := fun q hq => by
      have := (List.pairwise_append.1 hi).2.2 q hq (y, c) List.mem_cons_self
      simpa [PDict.keyLt, ltOf] using this
    have hgt : ∀ q ∈ d, y < q.1 := fun q hq => by
      have := (List.pairwise_cons.1 (List.pairwise_append.1 hi).2.1).1 q hq
      simpa [PDict.keyLt, ltOf] using this
    have hne : ∀ q ∈ a, q.2 ≠ c := fun q hq hc => by
      have : q = (y, c) := WF.node W (by rw [e]; exact List.mem_append_left _ hq) hm hc
      have h2 := hlt q hq
      rw [this] at h2
      exact lt_irrefl _ h2
    refine ⟨a, (y, c) :: d, e, rfl, hlt, fun p hp => ?_, ?_⟩
    · rcases List.mem_cons.1 hp with rfl | hp
      · exact lt_irrefl _
      · exact not_lt.2 (hgt p hp).le
    · show It.before c s.s = _
      rw [e]
      cases a with
      | nil =>
        show (if c == c then _ else _) = _
        rw [if_pos (by simp)]
        rfl
      | cons p a =>
        show (if p.2 == c then _ else It.beforeIn c p (a ++ (y, c) :: d)) = _
        rw [if_neg (by simpa using hne p List.mem_cons_self)]
        obtain ⟨b, q, hb⟩ : ∃ b q, p :: a = b ++ [q] := by
          rcases List.eq_nil_or_concat (p :: a) with e | ⟨b, q, e⟩
          · cases e
          · exact ⟨b, q, by rw [e, List.concat_eq_append]⟩
        rw [hb, List.getLast?_concat]
        exact beforeIn_eq a p q (y, c) b hb (fun t ht => hne t (List.mem_cons_of_mem _ ht)) rfl d

theorem dec_prev (W : s.WF) {it : It} {b : Option α} (h : Refers s it b) : ∃ o, IsPrev s.vals b o ∧
    match o with
    | some x => ∃ c, s.dec it = .ok (.node c) ∧ (x, c) ∈ s.s
    | none => s.dec it = .ub .badRange := by
  obtain ⟨l, d, e, -, h1, h2, h3⟩ := place_split W h
  have hi := wf_keyInc W
  have hv : ∀ z ∈ s.vals, Below z b → ∃ p ∈ l, p.1 = z := fun z hz hb => by
    obtain ⟨p, hp, rfl⟩ := mem_vals.1 hz
    rw [e, List.mem_append] at hp
    rcases hp with hp | hp
    · exact ⟨p, hp, rfl⟩
    · exact absurd hb (h2 p hp)
  rcases List.eq_nil_or_concat l with hl | ⟨a, p, hl⟩
  · subst hl
    refine ⟨none, fun z hz hb => ?_, h3⟩
    obtain ⟨p, hp, -⟩ := hv z hz hb
    cases hp
  · rw [List.concat_eq_append] at hl
    subst hl
    rw [List.getLast?_concat] at h3
    have hp : p ∈ s.s := by rw [e]; simp
    refine ⟨some p.1, ⟨mem_vals.2 ⟨p, hp, rfl⟩, h1 p (by simp), fun z hz hb => ?_⟩, p.2, h3, hp⟩
    obtain ⟨q, hq, rfl⟩ := hv z hz hb
    rw [e] at hi
    rcases List.mem_append.1 hq with hq | hq
    · have := (List.pairwise_append.1 (List.pairwise_append.1 hi).1).2.2 q hq p List.mem_cons_self
      simp only [PDict.keyLt, ltOf, decide_eq_true_eq] at this
      exact this.le
    · rw [List.mem_singleton.1 hq]

theorem begin_iff (W : s.WF) {it : It} {b : Option α} (h : Refers s it b) : it = s.begin ↔ IsPrev s.vals b none := by
  obtain ⟨l, d, e, hf, h1, h2, h3⟩ := place_split W h
  cases l with
  | nil =>
    constructor
    · intro _ z hz hb
      obtain ⟨p, hp, rfl⟩ := mem_vals.1 hz
      rw [e] at hp
      exact h2 p hp hb
    · intro _
      rw [hf]
      unfold Nodes.begin
      rw [e]; rfl
  | cons p l =>
    have hp : p ∈ s.s := by rw [e]; simp
    constructor
    · intro hb
      exfalso
      have hb' : s.begin = .node p.2 := by unfold Nodes.begin; rw [e]; rfl
      rw [hb', hf] at hb
      cases d with
      | nil => cases hb
      | cons q d =>
        have : q.2 = p.2 := by
          unfold It.first at hb
          exact It.node.inj hb
        have := WF.node W (by rw [e]; simp) hp this
        subst this
        exact h2 q List.mem_cons_self (h1 q List.mem_cons_self)
    · intro hb
      exact absurd (h1 p List.mem_cons_self) (hb p.1 (mem_vals.2 ⟨p, hp, rfl⟩))

theorem IsPrev.unique {S : Finset α} {b o o' : Option α} (h : IsPrev S b o) (h' : IsPrev S b o') : o = o' := by
  cases o <;> cases o'
  · rfl
  · exact absurd h'.2.1 (h _ h'.1)
  · exact absurd h.2.1 (h' _ h.1)
  · exact congrArg some (le_antisymm (h'.2.2 _ h.1 h.2.1) (h.2.2 _ h'.1 h'.2.1))

/-- The place after operations. -/
theorem place_run (W : s.WF) {it : It} {b : Option α} (h : Refers s it b) (ops : List (SOp α)) (hf : SOp.FairRun s.vals ops) :
    ∃ s', s.run ltOf ops = .ok s' ∧ s'.WF ∧ s'.vals = after s.vals ops ∧ (KeepsPlace b s.vals ops → Refers s' it b) ∧
      (¬ KeepsPlace b s.vals ops → s'.dec it = .ub .badDeref) := by
  obtain ⟨s', h1, W', h2, -, h4, h5, h6⟩ := run_ok ops W hf
  refine ⟨s', h1, W', h2, fun hk => ?_, fun hk => ?_⟩
  · cases b with
    | none => exact h
    | some y =>
      obtain ⟨c, rfl, hm⟩ := h
      exact ⟨c, rfl, h4 _ hm (hk y rfl)⟩
  · cases b with
    | none => exact absurd (fun y hy => by cases hy) hk
    | some y =>
      obtain ⟨c, rfl, hm⟩ := h
      have hk' : ¬ Keeps y s.vals ops := fun h => hk fun z hz => by cases hz; exact h
      refine before_none c _ fun p hp e => ?_
      rcases h6 p hp with hq | hq
      · exact h5 _ hm hk' (WF.node W hq hm e ▸ hp)
      · have := W.below _ hm
        simp only at this
        omega

theorem loopBack_visits {body : α → List (SOp α)} {S : Finset α} {b : Option α} {v : List α} {r : Except UB (Finset α)}
    (hv : VisitsBack body S b v r) : ∀ {s : Nodes α} {it : It} (u : List α), s.WF → s.vals = S → Refers s it b →
      match r with
      | .ok T => ∃ s', s'.vals = T ∧ ∀ k, v.length < k → Nodes.loopBack ltOf body k it s u = .ok (u ++ v, s')
      | .error e => ∀ k, v.length < k → Nodes.loopBack ltOf body k it s u = .ub e := by
  have one : ∀ {S : Finset α} {b : Option α} {x : α}, IsPrev S b (some x) → ∀ {s : Nodes α} {it : It}, s.WF → s.vals = S → Refers s it b →
      it ≠ s.begin ∧ s.derefBack it = .ok x := by
    intro S b x hp s it W hs hr
    subst hs
    refine ⟨fun e => ?_, ?_⟩
    · have := IsPrev.unique hp ((begin_iff W hr).1 e)
      cases this
    · obtain ⟨o, ho, h⟩ := dec_prev W hr
      have := IsPrev.unique hp ho
      subst this
      obtain ⟨c, hc, hm⟩ := h
      unfold Nodes.derefBack
      rw [hc, Res.ok_bind, deref_refers W hm]
  induction hv with
  | done S b hp =>
    intro s it u W hs hr
    subst hs
    refine ⟨s, rfl, fun k hk => ?_⟩
    obtain ⟨k, rfl⟩ := Nat.exists_eq_succ_of_ne_zero (by simp at hk; omega : k ≠ 0)
    rw [Nodes.loopBack, if_pos ((begin_iff W hr).2 hp), List.append_nil]
  | lost S b x hp hf hk =>
    intro s it u W hs hr k hlen
    obtain ⟨h1, h2⟩ := one hp W hs hr
    subst hs
    obtain ⟨s', h3, -, -, -, h4⟩ := place_run W hr (body x) hf
    obtain ⟨k, rfl⟩ := Nat.exists_eq_succ_of_ne_zero (by simp at hlen; omega : k ≠ 0)
    rw [Nodes.loopBack, if_neg h1, h2, Res.ok_bind, h3, Res.ok_bind, h4 hk]
    rfl
  | front S b x hp hf hk hn =>
    intro s it u W hs hr k hlen
    obtain ⟨h1, h2⟩ := one hp W hs hr
    subst hs
    obtain ⟨s', h3, W', hv', h4, -⟩ := place_run W hr (body x) hf
    obtain ⟨o, ho, h5⟩ := dec_prev W' (h4 hk)
    rw [hv'] at ho
    have := IsPrev.unique hn ho
    subst this
    obtain ⟨k, rfl⟩ := Nat.exists_eq_succ_of_ne_zero (by simp at hlen; omega : k ≠ 0)
    simp only at h5
    rw [Nodes.loopBack, if_neg h1, h2, Res.ok_bind, h3, Res.ok_bind, h5]
    rfl
  | visit S b x y v r hp hf hk hn hv ih =>
    intro s it u W hs hr
    obtain ⟨h1, h2⟩ := one hp W hs hr
    subst hs
    obtain ⟨s', h3, W', hv', h4, -⟩ := place_run W hr (body x) hf
    obtain ⟨o, ho, h5⟩ := dec_prev W' (h4 hk)
    rw [hv'] at ho
    have := IsPrev.unique hn ho
    subst this
    obtain ⟨c, hc, hm⟩ := h5
    have step : ∀ k, Nodes.loopBack ltOf body (k + 1) it s u = Nodes.loopBack ltOf body k (.node c) s' (u ++ [x]) := fun k => by
      rw [Nodes.loopBack, if_neg h1, h2, Res.ok_bind, h3, Res.ok_bind, hc, Res.ok_bind]
    have I := ih (s := s') (it := .node c) (u ++ [x]) W' hv' ⟨c, rfl, hm⟩
    cases r with
    | ok T =>
      obtain ⟨t, e1, e2⟩ := I
      refine ⟨t, e1, fun k hlen => ?_⟩
      obtain ⟨k, rfl⟩ := Nat.exists_eq_succ_of_ne_zero (by simp at hlen; omega : k ≠ 0)
      rw [step, e2 k (by simp at hlen; omega)]
      simp
    | error e =>
      intro k hlen
      obtain ⟨k, rfl⟩ := Nat.exists_eq_succ_of_ne_zero (by simp at hlen; omega : k ≠ 0)
      rw [step, I k (by simp at hlen; omega)]

/-- C91, reverse loops over a set whose body changes the set: what is visited is what the specification says. -/
theorem C91_set_partial (body : α → List (SOp α)) (s : Nodes α) (W : s.WF) (v : List α) :
    (∀ T, VisitsBack body s.vals none v (.ok T) → ∃ s', s'.vals = T ∧ Returns (fun k => Nodes.loopBack ltOf body k .last s []) (v, s')) ∧
    (∀ e, VisitsBack body s.vals none v (.error e) → HitsUB (fun k => Nodes.loopBack ltOf body k .last s []) e) := by
  constructor
  · intro T hv
    obtain ⟨s', a, b⟩ := loopBack_visits hv (it := .last) [] W rfl rfl
    exact ⟨s', a, v.length + 1, fun k hk => by simpa using b k (by omega)⟩
  · intro e hv
    exact ⟨v.length + 1, fun k hk => loopBack_visits hv (it := .last) [] W rfl rfl k (by omega)⟩

/-- Every other element, beginning with the first. -/
def everyOther {β : Type} : List β → List β
  | [] => []
  | [x] => [x]
  | x :: _ :: l => x :: everyOther l

omit [LinearOrder α] in
theorem everyOther_sub : ∀ (l : List α) (x : α), x ∈ everyOther l → x ∈ l
  | [], _, h => h
  | [_], _, h => h
  | y :: z :: l, x, h => by
    rcases List.mem_cons.1 h with rfl | h
    · exact List.mem_cons_self
    · exact List.mem_cons_of_mem _ (List.mem_cons_of_mem _ (everyOther_sub l x h))

/-- The greatest element below the place. -/
theorem prev_head {S : Finset α} {b : Option α} {r : List α} (hr : ∀ z, z ∈ S ∧ Below z b ↔ z ∈ r) (hd : r.Pairwise (· > ·)) : IsPrev S b r.head? := by
  cases r with
  | nil => exact fun z hz hb => by have := (hr z).1 ⟨hz, hb⟩; cases this
  | cons x r =>
    have hx := (hr x).2 List.mem_cons_self
    refine ⟨hx.1, hx.2, fun z hz hb => ?_⟩
    rcases List.mem_cons.1 ((hr z).1 ⟨hz, hb⟩) with rfl | h
    · exact le_rfl
    · exact ((List.pairwise_cons.1 hd).1 z h).le

theorem below_trans {x y : α} {b : Option α} (h : x < y) (hb : Below y b) : Below x b := by
  cases b with
  | none => trivial
  | some z => exact lt_trans h hb

theorem remove_visits : ∀ (n : ℕ) (r : List α), r.length ≤ n → ∀ (S : Finset α) (b : Option α), (∀ z, z ∈ S ∧ Below z b ↔ z ∈ r) → r.Pairwise (· > ·) →
    (Even r.length → VisitsBack (fun x => [.remove x]) S b (everyOther r) (.ok (S \ (everyOther r).toFinset))) ∧
    (¬ Even r.length → VisitsBack (fun x => [.remove x]) S b (everyOther r) (.error .badRange))
  | n, [], _, S, b, hr, hd => ⟨fun _ => by
      rw [show S \ (everyOther ([] : List α)).toFinset = S by simp [everyOther]]
      exact .done S b (prev_head hr hd), fun h => absurd (by simp) h⟩
  | n, [x], _, S, b, hr, hd => ⟨fun h => absurd h (by simp), fun _ => by
      have hp := prev_head hr hd
      refine .front S b x hp ⟨trivial, trivial⟩ (fun y hy => ⟨fun e => ?_, trivial⟩) ?_
      · subst hy
        subst e
        exact lt_irrefl _ hp.2.1
      · intro z hz hb
        have hz' : z ∈ S ∧ z ≠ x := by
          have : z ∈ S.erase x := hz
          exact ⟨(Finset.mem_erase.1 this).2, (Finset.mem_erase.1 this).1⟩
        exact hz'.2 (List.mem_singleton.1 ((hr z).1 ⟨hz'.1, hb⟩))⟩
  | 0, x :: y :: r, hn, _, _, _, _ => by simp at hn
  | n + 1, x :: y :: r, hn, S, b, hr, hd => by
    have hp := prev_head hr hd
    rw [List.pairwise_cons, List.pairwise_cons] at hd
    have hxy : y < x := hd.1 y List.mem_cons_self
    have he : ∀ z, z ∈ after S [.remove x] ↔ z ∈ S ∧ z ≠ x := fun z => by
      show z ∈ S.erase x ↔ _
      rw [Finset.mem_erase, and_comm]
    have hr' : ∀ z, z ∈ after S [.remove x] ∧ Below z (some y) ↔ z ∈ r := fun z => by
      rw [he]
      constructor
      · rintro ⟨⟨h1, h2⟩, h3⟩
        rcases List.mem_cons.1 ((hr z).1 ⟨h1, below_trans (lt_trans h3 hxy) hp.2.1⟩) with h | h
        · exact absurd h h2
        · rcases List.mem_cons.1 h with h | h
          · exact absurd h3 (by rw [h]; exact lt_irrefl _)
          · exact h
      · intro h
        refine ⟨⟨((hr z).2 (by simp [h])).1, ?_⟩, hd.2.1 z h⟩
        rintro rfl
        exact absurd (hd.1 z (by simp [h])) (lt_irrefl _)
    have hp' : IsPrev (after S [.remove x]) b (some y) := by
      have hy := (hr y).2 (by simp)
      refine ⟨(he y).2 ⟨hy.1, hxy.ne⟩, hy.2, fun z hz hb => ?_⟩
      rw [he] at hz
      rcases List.mem_cons.1 ((hr z).1 ⟨hz.1, hb⟩) with h | h
      · exact absurd h hz.2
      · rcases List.mem_cons.1 h with h | h
        · exact h.le
        · exact (hd.2.1 z h).le
    have hk : KeepsPlace b S [.remove x] := fun z hz => ⟨fun e => by
      subst hz
      subst e
      exact lt_irrefl _ hp.2.1, trivial⟩
    obtain ⟨i1, i2⟩ := remove_visits n r (by simp at hn; omega) (after S [.remove x]) (some y) hr' hd.2.2
    have par : Even (x :: y :: r).length ↔ Even r.length := by
      simp only [List.length_cons]
      rw [Nat.even_add_one, Nat.even_add_one, not_not]
    rw [par]
    constructor
    · intro h
      have hT : S \ (everyOther (x :: y :: r)).toFinset = after S [.remove x] \ (everyOther r).toFinset := by
        ext z
        rw [Finset.mem_sdiff, Finset.mem_sdiff, he, List.mem_toFinset, List.mem_toFinset]
        show _ ∧ ¬ (z ∈ x :: everyOther r) ↔ _
        rw [List.mem_cons]
        tauto
      rw [hT]
      exact .visit S b x y _ _ hp ⟨trivial, trivial⟩ hk hp' (i1 h)
    · intro h
      exact .visit S b x y _ _ hp ⟨trivial, trivial⟩ hk hp' (i2 h)

theorem nodes_reverse (W : s.WF) : ((s.s.map Prod.fst).reverse).Pairwise (· > ·) ∧ ∀ z, z ∈ s.vals ∧ Below z none ↔ z ∈ (s.s.map Prod.fst).reverse := by
  constructor
  · have := W.inc
    unfold Increasing at this
    rw [List.pairwise_reverse]
    exact this.imp fun h => by simpa [ltOf] using h
  · intro z
    unfold Nodes.vals
    simp [Below]

/-- C91, the trap: a reverse loop that removes the elements it visits visits every other element, from the greatest on. If the number of
elements is even, half of them are left; if it is odd, the loop is undefined. -/
theorem C91_remove_not (s : Nodes α) (W : s.WF) :
    (Even s.s.length → ∃ s', s'.vals = s.vals \ (everyOther (s.s.map Prod.fst).reverse).toFinset ∧
      Returns (fun k => Nodes.loopBack ltOf (fun x => [.remove x]) k .last s []) (everyOther (s.s.map Prod.fst).reverse, s')) ∧
    (¬ Even s.s.length → HitsUB (fun k => Nodes.loopBack ltOf (fun x => [.remove x]) k .last s []) .badRange) := by
  obtain ⟨h1, h2⟩ := nodes_reverse W
  obtain ⟨a, b⟩ := remove_visits _ (s.s.map Prod.fst).reverse le_rfl s.vals none h2 h1
  rw [List.length_reverse, List.length_map] at a b
  obtain ⟨c, d⟩ := C91_set_partial (fun x => [.remove x]) s W (everyOther (s.s.map Prod.fst).reverse)
  exact ⟨fun h => c _ (a h), fun h => d _ (b h)⟩

/-- Operations that only look at the set. -/
def Reads : SOp α → Prop
  | .min | .max | .contains _ | .size => True
  | _ => False

theorem reads_run : ∀ (ops : List (SOp α)) (S : Finset α), (∀ op ∈ ops, Reads op) → SOp.FairRun S ops ∧ (∀ y, Keeps y S ops) ∧ after S ops = S
  | [], S, _ => ⟨trivial, fun _ => trivial, rfl⟩
  | op :: ops, S, h => by
    have hb := h op List.mem_cons_self
    have ha : after S [op] = S := by
      unfold after
      simp only [SOp.absRun]
      cases op with
      | min => simp only [SOp.abs]; split <;> (next h => (split at h <;> cases h); rfl)
      | max => simp only [SOp.abs]; split <;> (next h => (split at h <;> cases h); rfl)
      | contains e => rfl
      | size => rfl
      | _ => exact absurd hb id
    have hf : op.Fair S ∧ ∀ y, ¬ Drops S y op := by cases op <;> first | exact ⟨trivial, fun _ h => h⟩ | exact absurd hb id
    obtain ⟨a, b, c⟩ := reads_run ops S fun o ho => h o (List.mem_cons_of_mem _ ho)
    refine ⟨⟨hf.1, ?_⟩, fun y => ⟨hf.2 y, by rw [ha]; exact b y⟩, by rw [after_cons, ha, c]⟩
    have hx : SOp.FairRun (after S [op]) ops := by rw [ha]; exact a
    unfold after at hx
    simp only [SOp.absRun] at hx
    cases hy : op.abs S <;> rw [hy] at hx <;> exact hx

theorem reads_visits {body : α → List (SOp α)} (hb : ∀ x, ∀ op ∈ body x, Reads op) (S : Finset α) : ∀ (r : List α) (b : Option α),
    (∀ z, z ∈ S ∧ Below z b ↔ z ∈ r) → r.Pairwise (· > ·) → VisitsBack body S b r (.ok S)
  | [], b, hr, hd => .done S b (prev_head hr hd)
  | x :: r, b, hr, hd => by
    obtain ⟨h1, h2, h3⟩ := reads_run (body x) S (hb x)
    have hp := prev_head hr hd
    rw [List.pairwise_cons] at hd
    have hr' : ∀ z, z ∈ S ∧ Below z (some x) ↔ z ∈ r := fun z => by
      constructor
      · rintro ⟨h4, h5⟩
        rcases List.mem_cons.1 ((hr z).1 ⟨h4, below_trans h5 hp.2.1⟩) with h | h
        · exact absurd h5 (by rw [h]; exact lt_irrefl _)
        · exact h
      · intro h
        exact ⟨((hr z).2 (by simp [h])).1, hd.1 z h⟩
    refine .visit S b x x r _ hp h1 (fun y _ => h2 y) (by rw [h3]; exact hp) ?_
    rw [h3]
    exact reads_visits hb S r (some x) hr' hd.2

/-- C91: a reverse loop whose bodies only look at the set visits all elements, from the greatest to the least. -/
theorem C91_reading (body : α → List (SOp α)) (hb : ∀ x, ∀ op ∈ body x, Reads op) (s : Nodes α) (W : s.WF) :
    ∃ s', s'.vals = s.vals ∧ Returns (fun k => Nodes.loopBack ltOf body k .last s []) ((s.s.map Prod.fst).reverse, s') := by
  obtain ⟨h1, h2⟩ := nodes_reverse W
  exact (C91_set_partial body s W _).1 _ (reads_visits hb s.vals _ none h2 h1)

example : Nodes.loopBack ltOf (fun x : ℤ => [.remove x]) 10 .last ⟨[(1, 0), (2, 1), (3, 2), (4, 3)], 4⟩ [] =
    .ok ([4, 2], ⟨[(1, 0), (3, 2)], 4⟩) ∧
    Nodes.loopBack ltOf (fun x : ℤ => [.remove x]) 10 .last ⟨[(1, 0), (2, 1), (3, 2)], 3⟩ [] = .ub .badRange := by decide +kernel
/-- Adding 2 between 1 and the end makes the loop visit 1 again; removing the element visited before loses the place. -/
example : Nodes.loopBack ltOf (fun x : ℤ => if x = 1 then [.add 2] else []) 10 .last ⟨[(1, 0)], 1⟩ [] = .ok ([1, 1], ⟨[(1, 0), (2, 1)], 3⟩) ∧
    Nodes.loopBack ltOf (fun x : ℤ => [.remove (x + 1)]) 10 .last two [] = .ub .badDeref := by decide +kernel

end PSet

namespace PDict

variable {K V : Type} [LinearOrder K] {s : Nodes K V} {m : FMap K V}

open PSet (IsPrev Below everyOther)

/-- No operation of the sequence erases what is at the place `b`. -/
def KeepsPlace (b : Option K) (m : FMap K V) (ops : List (MOp K V)) : Prop := ∀ y, b = some y → KeepsKey y m ops

/-- A reverse loop over the dictionary, from the place `b` on: the pairs visited, and the dictionary it leaves, or what makes it undefined: the
place has been lost, or (`badRange`) there is nothing before it any more. -/
inductive VisitsBack (body : K × V → List (MOp K V)) : FMap K V → Option K → List (K × V) → Except UB (FMap K V) → Prop
  | done (m : FMap K V) (b : Option K) : IsPrev m.keys b none → VisitsBack body m b [] (.ok m)
  | lost (m : FMap K V) (b : Option K) (k : K) (x : V) : IsPrev m.keys b (some k) → m.lookup k = some x → MOp.FairRun m (body (k, x)) →
      ¬ KeepsPlace b m (body (k, x)) → VisitsBack body m b [(k, x)] (.error .badDeref)
  | front (m : FMap K V) (b : Option K) (k : K) (x : V) : IsPrev m.keys b (some k) → m.lookup k = some x → MOp.FairRun m (body (k, x)) →
      KeepsPlace b m (body (k, x)) → IsPrev (afterOps m (body (k, x))).keys b none → VisitsBack body m b [(k, x)] (.error .badRange)
  | visit (m : FMap K V) (b : Option K) (k : K) (x : V) (y : K) (v : List (K × V)) (r : Except UB (FMap K V)) : IsPrev m.keys b (some k) →
      m.lookup k = some x → MOp.FairRun m (body (k, x)) → KeepsPlace b m (body (k, x)) → IsPrev (afterOps m (body (k, x))).keys b (some y) →
      VisitsBack body (afterOps m (body (k, x))) (some y) v r → VisitsBack body m b ((k, x) :: v) r

theorem place_run (W : s.WF) (hs : Holds s.pairs m) {it : PSet.It} {b : Option K} (h : RefersTo s it b) (ops : List (MOp K V)) (hf : MOp.FairRun m ops) :
    ∃ s', s.run ltOf ops = .ok s' ∧ s'.WF ∧ Holds s'.pairs (afterOps m ops) ∧ (KeepsPlace b m ops → RefersTo s' it b) ∧
      (¬ KeepsPlace b m ops → s'.dec it = .ub .badDeref) := by
  obtain ⟨s', h1, W', h2, -, h4, h5, h6⟩ := iter_run_ok ops W hs hf
  refine ⟨s', h1, W', h2, fun hk => ?_, fun hk => ?_⟩
  · cases b with
    | none => exact h
    | some y =>
      obtain ⟨c, rfl, hm⟩ := h
      exact ⟨c, rfl, h4 _ hm (hk y rfl)⟩
  · cases b with
    | none => exact absurd (fun y hy => by cases hy) hk
    | some y =>
      obtain ⟨c, rfl, hm⟩ := h
      have hk' : ¬ KeepsKey y m ops := fun h => hk fun z hz => by cases hz; exact h
      refine PSet.before_none c _ fun p hp e => ?_
      rcases h6 p hp with hq | hq
      · exact h5 _ hm hk' (PSet.WF.node W.tree hq hm e ▸ hp)
      · have := W.tree.below _ hm
        simp only [Nodes.tree] at this
        omega

theorem loopBack_visits {body : K × V → List (MOp K V)} {b : Option K} {v : List (K × V)} {r : Except UB (FMap K V)}
    (hv : VisitsBack body m b v r) : ∀ {s : Nodes K V} {it : PSet.It} (u : List (K × V)), s.WF → Holds s.pairs m → RefersTo s it b →
      match r with
      | .ok t => ∃ s', s'.WF ∧ Holds s'.pairs t ∧ ∀ k, v.length < k → Nodes.loopBack ltOf body k it s u = .ok (u ++ v, s')
      | .error e => ∀ k, v.length < k → Nodes.loopBack ltOf body k it s u = .ub e := by
  have one : ∀ {m : FMap K V} {b : Option K} {k : K} {x : V}, IsPrev m.keys b (some k) → m.lookup k = some x → ∀ {s : Nodes K V} {it : PSet.It}, s.WF →
      Holds s.pairs m → RefersTo s it b → it ≠ s.begin ∧ s.derefBack it = .ok (k, x) := by
    intro m b k x hp hx s it W hs hr
    rw [← holds_keys hs] at hp
    refine ⟨fun e => ?_, ?_⟩
    · have := PSet.IsPrev.unique hp ((PSet.begin_iff W.tree hr).1 e)
      cases this
    · obtain ⟨o, ho, h⟩ := PSet.dec_prev W.tree hr
      have := PSet.IsPrev.unique hp ho
      subst this
      obtain ⟨c, hc, hm⟩ := h
      obtain ⟨x', hx', hd⟩ := deref_node W hs hm
      rw [hx] at hx'
      cases hx'
      unfold Nodes.derefBack Nodes.dec
      rw [hc, Res.ok_bind, hd]
  induction hv with
  | done m b hp =>
    intro s it u W hs hr
    refine ⟨s, W, hs, fun k hk => ?_⟩
    obtain ⟨k, rfl⟩ := Nat.exists_eq_succ_of_ne_zero (by simp at hk; omega : k ≠ 0)
    have e : it = s.begin := (PSet.begin_iff W.tree hr).2 (by rw [holds_keys hs]; exact hp)
    rw [Nodes.loopBack, if_pos e, List.append_nil]
  | lost m b k x hp hx hf hk =>
    intro s it u W hs hr j hlen
    obtain ⟨h1, h2⟩ := one hp hx W hs hr
    obtain ⟨s', h3, -, -, -, h4⟩ := place_run W hs hr (body (k, x)) hf
    obtain ⟨j, rfl⟩ := Nat.exists_eq_succ_of_ne_zero (by simp at hlen; omega : j ≠ 0)
    rw [Nodes.loopBack, if_neg h1, h2, Res.ok_bind, h3, Res.ok_bind, h4 hk]
    rfl
  | front m b k x hp hx hf hk hn =>
    intro s it u W hs hr j hlen
    obtain ⟨h1, h2⟩ := one hp hx W hs hr
    obtain ⟨s', h3, W', hv', h4, -⟩ := place_run W hs hr (body (k, x)) hf
    obtain ⟨o, ho, h5⟩ := PSet.dec_prev W'.tree (h4 hk)
    rw [holds_keys hv'] at ho
    have := PSet.IsPrev.unique hn ho
    subst this
    obtain ⟨j, rfl⟩ := Nat.exists_eq_succ_of_ne_zero (by simp at hlen; omega : j ≠ 0)
    have h5 : s'.dec it = .ub .badRange := h5
    rw [Nodes.loopBack, if_neg h1, h2, Res.ok_bind, h3, Res.ok_bind, h5]
    rfl
  | visit m b k x y v r hp hx hf hk hn hv ih =>
    intro s it u W hs hr
    obtain ⟨h1, h2⟩ := one hp hx W hs hr
    obtain ⟨s', h3, W', hv', h4, -⟩ := place_run W hs hr (body (k, x)) hf
    obtain ⟨o, ho, h5⟩ := PSet.dec_prev W'.tree (h4 hk)
    rw [holds_keys hv'] at ho
    have := PSet.IsPrev.unique hn ho
    subst this
    obtain ⟨c, hc, hm⟩ := h5
    have hc : s'.dec it = .ok (.node c) := hc
    have step : ∀ j, Nodes.loopBack ltOf body (j + 1) it s u = Nodes.loopBack ltOf body j (.node c) s' (u ++ [(k, x)]) := fun j => by
      rw [Nodes.loopBack, if_neg h1, h2, Res.ok_bind, h3, Res.ok_bind, hc, Res.ok_bind]
    have I := ih (s := s') (it := .node c) (u ++ [(k, x)]) W' hv' ⟨c, rfl, hm⟩
    cases r with
    | ok T =>
      obtain ⟨t, e0, e1, e2⟩ := I
      refine ⟨t, e0, e1, fun j hlen => ?_⟩
      obtain ⟨j, rfl⟩ := Nat.exists_eq_succ_of_ne_zero (by simp at hlen; omega : j ≠ 0)
      rw [step, e2 j (by simp at hlen; omega)]
      simp
    | error e =>
      intro j hlen
      obtain ⟨j, rfl⟩ := Nat.exists_eq_succ_of_ne_zero (by simp at hlen; omega : j ≠ 0)
      rw [step, I j (by simp at hlen; omega)]

/-- C91, reverse loops over a dictionary whose body changes the dictionary: what is visited is what the specification says. -/
theorem C91_dict_partial (body : K × V → List (MOp K V)) (s : Nodes K V) (W : s.WF) (m : FMap K V) (h : Holds s.pairs m) (v : List (K × V)) :
    (∀ t, VisitsBack body m none v (.ok t) → ∃ s', Holds s'.pairs t ∧ Returns (fun k => Nodes.loopBack ltOf body k .last s []) (v, s')) ∧
    (∀ e, VisitsBack body m none v (.error e) → HitsUB (fun k => Nodes.loopBack ltOf body k .last s []) e) := by
  constructor
  · intro t hv
    obtain ⟨s', -, a, b⟩ := loopBack_visits hv (it := .last) [] W h rfl
    exact ⟨s', a, v.length + 1, fun k hk => by simpa using b k (by omega)⟩
  · intro e hv
    exact ⟨v.length + 1, fun k hk => loopBack_visits hv (it := .last) [] W h rfl k (by omega)⟩

/-- The greatest key below the place. -/
theorem prev_pair {b : Option K} {r : List (K × V)} (hr : ∀ k x, m.lookup k = some x ∧ Below k b ↔ (k, x) ∈ r) (hd : r.Pairwise fun p q => p.1 > q.1) :
    IsPrev m.keys b (r.head?.map Prod.fst) := by
  have key : ∀ z, z ∈ m.keys → Below z b → ∃ p ∈ r, p.1 = z := fun z hz hb => by
    obtain ⟨x, hx⟩ := Option.isSome_iff_exists.1 (Finmap.lookup_isSome.2 (Finmap.mem_keys.1 hz))
    exact ⟨_, (hr z x).1 ⟨hx, hb⟩, rfl⟩
  cases r with
  | nil => exact fun z hz hb => by obtain ⟨p, hp, -⟩ := key z hz hb; cases hp
  | cons p r =>
    have hx := (hr p.1 p.2).2 List.mem_cons_self
    refine ⟨Finmap.mem_keys.2 (Finmap.lookup_isSome.1 (by rw [hx.1]; rfl)), hx.2, fun z hz hb => ?_⟩
    obtain ⟨q, hq, rfl⟩ := key z hz hb
    rcases List.mem_cons.1 hq with rfl | h
    · exact le_rfl
    · exact ((List.pairwise_cons.1 hd).1 q h).le

theorem remove_visits : ∀ (n : ℕ) (r : List (K × V)), r.length ≤ n → ∀ (m : FMap K V) (b : Option K), (∀ k x, m.lookup k = some x ∧ Below k b ↔ (k, x) ∈ r) →
    r.Pairwise (fun p q => p.1 > q.1) →
    (Even r.length → ∃ t, VisitsBack (fun p => [.remove p.1]) m b (everyOther r) (.ok t) ∧
      ∀ k x, t.lookup k = some x ↔ m.lookup k = some x ∧ (k, x) ∉ everyOther r) ∧
    (¬ Even r.length → VisitsBack (fun p => [.remove p.1]) m b (everyOther r) (.error .badRange))
  | n, [], _, m, b, hr, hd => ⟨fun _ => ⟨m, .done m b (prev_pair hr hd), fun k x => by simp [everyOther]⟩, fun h => absurd (by simp) h⟩
  | n, [(k, x)], _, m, b, hr, hd => ⟨fun h => absurd h (by simp), fun _ => by
      have hp := prev_pair hr hd
      have hx := (hr k x).2 List.mem_cons_self
      refine .front m b k x hp hx.1 ⟨trivial, trivial⟩ (fun y hy => ⟨fun e => ?_, trivial⟩) ?_
      · subst hy
        have e : k = y := e
        subst e
        exact lt_irrefl _ hp.2.1
      · intro z hz hb
        have hz : z ∈ (m.erase k).keys := hz
        rw [Finmap.mem_keys, Finmap.mem_erase] at hz
        obtain ⟨w, hw⟩ := Option.isSome_iff_exists.1 (Finmap.lookup_isSome.2 hz.2)
        have := List.mem_singleton.1 ((hr z w).1 ⟨hw, hb⟩)
        cases this
        exact hz.1 rfl⟩
  | 0, x :: y :: r, hn, _, _, _, _ => by simp at hn
  | n + 1, (k, x) :: (l, y) :: r, hn, m, b, hr, hd => by
    have hp := prev_pair hr hd
    have hx := (hr k x).2 List.mem_cons_self
    have hy := (hr l y).2 (by simp)
    rw [List.pairwise_cons, List.pairwise_cons] at hd
    have hkl : l < k := hd.1 (l, y) List.mem_cons_self
    have ha : afterOps m [.remove k] = m.erase k := rfl
    have hlk : ∀ z w, (m.erase k).lookup z = some w ↔ m.lookup z = some w ∧ z ≠ k := fun z w => by
      by_cases e : z = k
      · subst e; simp
      · rw [Finmap.lookup_erase_ne e]; simp [e]
    have hr' : ∀ z w, (afterOps m [.remove k]).lookup z = some w ∧ Below z (some l) ↔ (z, w) ∈ r := fun z w => by
      rw [ha, hlk]
      constructor
      · rintro ⟨⟨h1, h2⟩, h3⟩
        rcases List.mem_cons.1 ((hr z w).1 ⟨h1, PSet.below_trans (lt_trans h3 hkl) hp.2.1⟩) with h | h
        · cases h; exact absurd rfl h2
        · rcases List.mem_cons.1 h with h | h
          · cases h; exact absurd h3 (lt_irrefl _)
          · exact h
      · intro h
        refine ⟨⟨((hr z w).2 (by simp [h])).1, ?_⟩, hd.2.1 _ h⟩
        rintro rfl
        exact absurd (hd.1 (z, w) (by simp [h])) (lt_irrefl _)
    have hp' : IsPrev (afterOps m [.remove k]).keys b (some l) := by
      rw [ha]
      refine ⟨Finmap.mem_keys.2 (Finmap.lookup_isSome.1 (by rw [(hlk l y).2 ⟨hy.1, hkl.ne⟩]; rfl)), hy.2, fun z hz hb => ?_⟩
      obtain ⟨w, hw⟩ := Option.isSome_iff_exists.1 (Finmap.lookup_isSome.2 (Finmap.mem_keys.1 hz))
      obtain ⟨h1, h2⟩ := (hlk z w).1 hw
      rcases List.mem_cons.1 ((hr z w).1 ⟨h1, hb⟩) with h | h
      · cases h; exact absurd rfl h2
      · rcases List.mem_cons.1 h with h | h
        · cases h; exact le_rfl
        · exact (hd.2.1 _ h).le
    have hk : KeepsPlace b m [.remove k] := fun z hz => ⟨fun e => by
      subst hz
      have e : k = z := e
      subst e
      exact lt_irrefl _ hp.2.1, trivial⟩
    obtain ⟨i1, i2⟩ := remove_visits n r (by simp at hn; omega) (afterOps m [.remove k]) (some l) hr' hd.2.2
    have par : Even ((k, x) :: (l, y) :: r).length ↔ Even r.length := by
      simp only [List.length_cons]
      rw [Nat.even_add_one, Nat.even_add_one, not_not]
    rw [par]
    constructor
    · intro h
      obtain ⟨t, ht, hl⟩ := i1 h
      refine ⟨t, .visit m b k x l _ _ hp hx.1 ⟨trivial, trivial⟩ hk hp' ht, fun z w => ?_⟩
      rw [hl, ha, hlk]
      show _ ↔ _ ∧ ¬ ((z, w) ∈ (k, x) :: everyOther r)
      rw [List.mem_cons, Prod.mk.injEq]
      constructor
      · rintro ⟨⟨h1, h2⟩, h3⟩
        exact ⟨h1, fun h => h.elim (fun h => h2 h.1) h3⟩
      · rintro ⟨h1, h2⟩
        refine ⟨⟨h1, ?_⟩, fun h => h2 (.inr h)⟩
        rintro rfl
        rw [hx.1] at h1
        cases h1
        exact h2 (.inl ⟨rfl, rfl⟩)
    · intro h
      exact .visit m b k x l _ _ hp hx.1 ⟨trivial, trivial⟩ hk hp' (i2 h)

theorem pairs_reverse (W : s.WF) (h : Holds s.pairs m) : s.pairs.reverse.Pairwise (fun p q => p.1 > q.1) ∧
    ∀ k x, m.lookup k = some x ∧ Below k none ↔ (k, x) ∈ s.pairs.reverse := by
  constructor
  · have := W.pairsInc
    unfold Increasing at this
    rw [List.pairwise_reverse]
    exact this.imp fun h => by simpa [PDict.keyLt, ltOf] using h
  · intro k x
    rw [List.mem_reverse, h k x]
    simp [Below]

/-- C91, the trap for a dictionary: a reverse loop that removes the pairs it visits visits every other pair, from the greatest key on. If the
number of pairs is even, half of them are left; if it is odd, the loop is undefined. -/
theorem C91_dict_remove_not (s : Nodes K V) (W : s.WF) :
    (Even s.pairs.length → ∃ s', (∀ p, p ∈ s'.pairs ↔ p ∈ s.pairs ∧ p ∉ everyOther s.pairs.reverse) ∧
      Returns (fun k => Nodes.loopBack ltOf (fun p => [.remove p.1]) k .last s []) (everyOther s.pairs.reverse, s')) ∧
    (¬ Even s.pairs.length → HitsUB (fun k => Nodes.loopBack ltOf (fun p => [.remove p.1]) k .last s []) .badRange) := by
  obtain ⟨m, h⟩ := exists_map W.pairsInc
  obtain ⟨h1, h2⟩ := pairs_reverse W h
  obtain ⟨a, b⟩ := remove_visits _ s.pairs.reverse le_rfl m none h2 h1
  rw [List.length_reverse] at a b
  obtain ⟨c, d⟩ := C91_dict_partial (fun p => [.remove p.1]) s W m h (everyOther s.pairs.reverse)
  refine ⟨fun he => ?_, fun he => d _ (b he)⟩
  obtain ⟨t, ht, hl⟩ := a he
  obtain ⟨s', hs', hr⟩ := c t ht
  refine ⟨s', fun p => ?_, hr⟩
  rw [show p ∈ s'.pairs ↔ _ from hs' p.1 p.2, hl, ← h p.1 p.2]

example : (Nodes.loopBack ltOf (fun p : ℕ × String => [.remove p.1]) 10 .last refExample [] >>= fun r => .ok (r.1, r.2.pairs)) = .ok ([(3, "b")], [(1, "a")]) ∧
    (Nodes.loopBack ltOf (fun p : ℕ × String => [.assign 1 "z", .add 9 p.2]) 10 .last refExample [] >>= fun r => .ok r.1) =
      .ok [(3, "b"), (3, "b"), (1, "z")] := by decide +kernel

end PDict
end Pyincpp
