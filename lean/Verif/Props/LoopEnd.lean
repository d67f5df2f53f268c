import Verif.Props.ReverseIter
import Verif.Props.ListLoop
import Verif.Props.DequeLoop

/-! # C93: which loops over a container that is changed come to an end

`P` is an invariant of the bodies: a body that begins in a container with `P` keeps `P` and stays within the limits of the operations (`FairRun`). -/

namespace Pyincpp

/-! ## Sets -/

namespace PSet

variable {α : Type} [LinearOrder α]

theorem next_exists (S : Finset α) (x : α) : ∃ o, IsNext S x o := by
  by_cases h : (S.filter (x < ·)).Nonempty
  · refine ⟨some ((S.filter (x < ·)).min' h), ?_, ?_, fun z hz hx => ?_⟩
    · exact (Finset.mem_filter.1 (Finset.min'_mem _ h)).1
    · exact (Finset.mem_filter.1 (Finset.min'_mem _ h)).2
    · exact Finset.min'_le _ _ (Finset.mem_filter.2 ⟨hz, hx⟩)
  · refine ⟨none, fun z hz => ?_⟩
    by_contra hx
    exact h ⟨z, Finset.mem_filter.2 ⟨hz, lt_of_not_ge hx⟩⟩

theorem prev_exists (S : Finset α) (b : Option α) : ∃ o, IsPrev S b o := by
  classical
  by_cases h : (S.filter (Below · b)).Nonempty
  · refine ⟨some ((S.filter (Below · b)).max' h), ?_, ?_, fun z hz hx => ?_⟩
    · exact (Finset.mem_filter.1 (Finset.max'_mem _ h)).1
    · exact (Finset.mem_filter.1 (Finset.max'_mem _ h)).2
    · exact Finset.le_max' _ _ (Finset.mem_filter.2 ⟨hz, hx⟩)
  · exact ⟨none, fun z hz hx => h ⟨z, Finset.mem_filter.2 ⟨hz, hx⟩⟩⟩

theorem visits_exist [WellFoundedGT α] {body : α → List (SOp α)} {P : Finset α → Prop}
    (hP : ∀ S x, P S → x ∈ S → SOp.FairRun S (body x) ∧ P (after S (body x))) :
    ∀ x S, P S → x ∈ S → ∃ v r, Visits body S (some x) v r := by
  intro x
  induction x using WellFoundedGT.induction with
  | ind x ih =>
    intro S hS hx
    obtain ⟨hf, hS'⟩ := hP S x hS hx
    by_cases hk : Keeps x S (body x)
    · obtain ⟨o, ho⟩ := next_exists (after S (body x)) x
      cases o with
      | none => exact ⟨_, _, .visit S x none [] _ hf hk ho (.done _)⟩
      | some y =>
        obtain ⟨v, r, h⟩ := ih y ho.2.1 _ hS' ho.1
        exact ⟨_, _, .visit S x _ v r hf hk ho h⟩
    · exact ⟨_, _, .lost S x hf hk⟩

/-- C93, sets of a type without endless ascending chains (any finite type, like `int`): a loop over a set comes to an end, whatever the bodies
do to the set; it returns, or is undefined because a body has erased the element it is at. -/
theorem C93_set_partial [WellFoundedGT α] (body : α → List (SOp α)) (P : Finset α → Prop)
    (hP : ∀ S x, P S → x ∈ S → SOp.FairRun S (body x) ∧ P (after S (body x))) (s : Nodes α) (W : s.WF) (h : P s.vals) :
    (∃ v s', Returns (fun k => Nodes.loop ltOf body k s.begin s []) (v, s')) ∨
      HitsUB (fun k => Nodes.loop ltOf body k s.begin s []) .badDeref := by
  obtain ⟨o, ho, -⟩ := C88_begin s W
  have hv : ∃ v r, Visits body s.vals o v r := by
    cases o with
    | none => exact ⟨_, _, .done _⟩
    | some x => exact visits_exist hP x _ h ho.1
  obtain ⟨v, r, hv⟩ := hv
  cases r with
  | none => exact .inr ((C88_loop_partial body s W o ho v).2 hv)
  | some T =>
    obtain ⟨s', -, hr⟩ := (C88_loop_partial body s W o ho v).1 T hv
    exact .inl ⟨v, s', hr⟩

theorem back_exist {body : α → List (SOp α)} {P : Finset α → Prop}
    (hP : ∀ S x, P S → x ∈ S → SOp.FairRun S (body x) ∧ P (after S (body x))) (b : Option α)
    (ih : ∀ y, Below y b → ∀ S, P S → ∃ v r, VisitsBack body S (some y) v r) (S : Finset α) (hS : P S) : ∃ v r, VisitsBack body S b v r := by
  obtain ⟨o, ho⟩ := prev_exists S b
  cases o with
  | none => exact ⟨_, _, .done S b ho⟩
  | some x =>
    obtain ⟨hf, hS'⟩ := hP S x hS ho.1
    by_cases hk : KeepsPlace b S (body x)
    · obtain ⟨o', ho'⟩ := prev_exists (after S (body x)) b
      cases o' with
      | none => exact ⟨_, _, .front S b x ho hf hk ho'⟩
      | some y =>
        obtain ⟨v, r, h⟩ := ih y ho'.2.1 _ hS'
        exact ⟨_, _, .visit S b x y v r ho hf hk ho' h⟩
    · exact ⟨_, _, .lost S b x ho hf hk⟩

theorem back_exist' [WellFoundedLT α] {body : α → List (SOp α)} {P : Finset α → Prop}
    (hP : ∀ S x, P S → x ∈ S → SOp.FairRun S (body x) ∧ P (after S (body x))) (S : Finset α) (hS : P S) : ∃ v r, VisitsBack body S none v r := by
  have some' : ∀ y, ∀ S, P S → ∃ v r, VisitsBack body S (some y) v r := by
    intro y
    induction y using WellFoundedLT.induction with
    | ind y ih => exact fun S hS => back_exist hP (some y) (fun z hz => ih z hz) S hS
  exact back_exist hP none (fun y _ => some' y) S hS

/-- C93, reverse loops over a set: the same for a type without endless descending chains. -/
theorem C93_set_reverse_partial [WellFoundedLT α] (body : α → List (SOp α)) (P : Finset α → Prop)
    (hP : ∀ S x, P S → x ∈ S → SOp.FairRun S (body x) ∧ P (after S (body x))) (s : Nodes α) (W : s.WF) (h : P s.vals) :
    (∃ v s', Returns (fun k => Nodes.loopBack ltOf body k .last s []) (v, s')) ∨
      ∃ e, HitsUB (fun k => Nodes.loopBack ltOf body k .last s []) e := by
  obtain ⟨v, r, hv⟩ := back_exist' hP s.vals h
  cases r with
  | error e => exact .inr ⟨e, (C91_set_partial body s W v).2 e hv⟩
  | ok T =>
    obtain ⟨s', -, hr⟩ := (C91_set_partial body s W v).1 T hv
    exact .inl ⟨v, s', hr⟩

/-- `n` rounds of a loop over the set. -/
def Rounds (body : α → List (SOp α)) : ℕ → Finset α → Option α → Prop
  | 0, _, _ => True
  | n + 1, S, o => ∃ x y, o = some x ∧ SOp.FairRun S (body x) ∧ Keeps x S (body x) ∧ IsNext (after S (body x)) x y ∧
      Rounds body n (after S (body x)) y

theorem loop_rounds {body : α → List (SOp α)} : ∀ (n : ℕ) {S : Finset α} {o : Option α} (_ : Rounds body n S o) {s : Nodes α} {it : It} (u : List α),
    s.WF → s.vals = S → Refers s it o → Nodes.loop ltOf body n it s u = .fuel
  | 0, _, _, _, _, _, _, _, _, _ => rfl
  | n + 1, S, o, h, s, it, u, W, hs, hr => by
    obtain ⟨x, y, rfl, hf, hk, hn, h⟩ := h
    obtain ⟨c, rfl, hm⟩ := hr
    subst hs
    obtain ⟨s', h1, W', h2, hl, -⟩ := C88_exact s W x c hm (body x) hf
    obtain ⟨-, it', o', i1, i2, i3⟩ := hl hk
    have e : o' = y := IsNext.unique i2 (by rw [h2]; exact hn)
    subst e
    rw [Nodes.loop, if_neg (by simp), deref_refers W hm, Res.ok_bind, h1, Res.ok_bind, i1, Res.ok_bind]
    exact loop_rounds n h (u ++ [x]) W' h2 i3

/-- C93: a loop over a set does not come to an end if it has a next round for ever. -/
theorem C93_set_forever (body : α → List (SOp α)) (s : Nodes α) (W : s.WF) (o : Option α) (ho : IsFirst s.vals o)
    (h : ∀ n, Rounds body n s.vals o) : Diverges (fun k => Nodes.loop ltOf body k s.begin s []) := by
  obtain ⟨o', h1, h2⟩ := C88_begin s W
  have e := IsFirst.unique h1 ho
  subst e
  exact ⟨0, fun k _ => loop_rounds k (h k) [] W rfl h2⟩

/-- Adding the next number and taking the one before away. -/
def chase (x : ℕ) : List (SOp ℕ) := [.add (x + 1), .remove (x - 1)]

theorem chase_rounds : ∀ (n x : ℕ) (S : Finset ℕ), 0 < x → S ⊆ {x - 1, x} → x ∈ S → Rounds chase n S (some x)
  | 0, _, _, _, _, _ => trivial
  | n + 1, x, S, hx, hS, hm => by
    have hc : S.card ≠ maxLen := by
      have := (Finset.card_le_card hS).trans Finset.card_le_two
      unfold maxLen
      omega
    have ha : after S (chase x) = (insert (x + 1) S).erase (x - 1) := by
      simp [after, chase, SOp.absRun, SOp.abs, hc]
    have sub : ∀ z ∈ S, z = x - 1 ∨ z = x := fun z hz => by simpa using hS hz
    refine ⟨x, some (x + 1), rfl, ?_, ?_, ?_, ?_⟩
    · simp [chase, SOp.FairRun, SOp.Fair, SOp.abs, hc]
    · simp only [chase, Keeps, Drops, not_false_eq_true, true_and, and_true]
      omega
    · rw [ha]
      refine ⟨by simp; omega, by omega, fun z hz hxz => by omega⟩
    · rw [ha]
      refine chase_rounds n (x + 1) _ (by omega) ?_ (by simp; omega)
      intro z hz
      rw [Finset.mem_erase, Finset.mem_insert] at hz
      rcases hz.2 with rfl | h
      · simp
      · rcases sub z h with rfl | rfl
        · exact absurd rfl hz.1
        · simp

/-- C93 is false of sets of a type without a greatest element, like `Int`: this loop, over a set that never has more than three elements, does not
come to an end. -/
theorem C93_set_not (s : Nodes ℕ) (W : s.WF) (x : ℕ) (hx : 0 < x) (h : s.vals = {x}) :
    Diverges (fun k => Nodes.loop ltOf chase k s.begin s []) :=
  C93_set_forever chase s W (some x) (by rw [h]; exact ⟨by simp, by simp⟩) fun n => chase_rounds n x _ hx (by rw [h]; simp) (by rw [h]; simp)

theorem one_wf : (⟨[(1, 0)], 1⟩ : Nodes ℕ).WF := ⟨List.pairwise_singleton _ _, by decide, by decide, by decide⟩

example : (⟨[(1, 0)], 1⟩ : Nodes ℕ).WF ∧ (⟨[(1, 0)], 1⟩ : Nodes ℕ).vals = {1} := ⟨one_wf, rfl⟩
example : ∀ n, Rounds chase n {1} (some 1) := fun n => chase_rounds n 1 _ (by decide) (by simp) (by simp)
/-- On `Fin 5`, with the least change of the body that is possible there, the loop comes to an end. -/
example : ∀ (S : Finset (Fin 5)) (x : Fin 5), True → x ∈ S → SOp.FairRun S [.add (x + 1), .remove (x - 1)] ∧ True := by
  intro S x _ _
  have hc : S.card ≠ maxLen := by
    have := S.card_le_univ
    rw [Fintype.card_fin] at this
    unfold maxLen
    omega
  simp [SOp.FairRun, SOp.Fair, SOp.abs, hc]

end PSet

/-! ## Dictionaries -/

namespace PDict

variable {K V : Type} [LinearOrder K]

theorem lookup_of_keys {m : FMap K V} {k : K} (h : k ∈ m.keys) : ∃ x, m.lookup k = some x :=
  Option.isSome_iff_exists.1 (Finmap.lookup_isSome.2 (Finmap.mem_keys.1 h))

theorem visits_exist [WellFoundedGT K] {body : K × V → List (MOp K V)} {P : FMap K V → Prop}
    (hP : ∀ m k x, P m → m.lookup k = some x → MOp.FairRun m (body (k, x)) ∧ P (afterOps m (body (k, x)))) :
    ∀ k m, P m → k ∈ m.keys → ∃ v r, VisitsPairs body m (some k) v r := by
  intro k
  induction k using WellFoundedGT.induction with
  | ind k ih =>
    intro m hm hk
    obtain ⟨x, hx⟩ := lookup_of_keys hk
    obtain ⟨hf, hm'⟩ := hP m k x hm hx
    by_cases hk : KeepsKey k m (body (k, x))
    · obtain ⟨o, ho⟩ := PSet.next_exists (afterOps m (body (k, x))).keys k
      cases o with
      | none => exact ⟨_, _, .visit m k x none [] _ hx hf hk ho (.done _)⟩
      | some y =>
        obtain ⟨v, r, h⟩ := ih y ho.2.1 _ hm' ho.1
        exact ⟨_, _, .visit m k x _ v r hx hf hk ho h⟩
    · exact ⟨_, _, .lost m k x hx hf hk⟩

/-- C93, dictionaries: the same for the keys. -/
theorem C93_dict_partial [WellFoundedGT K] (body : K × V → List (MOp K V)) (P : FMap K V → Prop)
    (hP : ∀ m k x, P m → m.lookup k = some x → MOp.FairRun m (body (k, x)) ∧ P (afterOps m (body (k, x)))) (s : Nodes K V) (W : s.WF)
    (m : FMap K V) (hs : Holds s.pairs m) (h : P m) :
    (∃ v s', Returns (fun j => Nodes.loop ltOf body j s.begin s []) (v, s')) ∨
      HitsUB (fun j => Nodes.loop ltOf body j s.begin s []) .badDeref := by
  obtain ⟨o, ho, -⟩ := C90_begin s W m hs
  have hv : ∃ v r, VisitsPairs body m o v r := by
    cases o with
    | none => exact ⟨_, _, .done _⟩
    | some k => exact visits_exist hP k _ h ho.1
  obtain ⟨v, r, hv⟩ := hv
  cases r with
  | none => exact .inr ((C90_loop_partial body s W m hs o ho v).2 hv)
  | some t =>
    obtain ⟨s', -, hr⟩ := (C90_loop_partial body s W m hs o ho v).1 t hv
    exact .inl ⟨v, s', hr⟩

theorem back_exist {body : K × V → List (MOp K V)} {P : FMap K V → Prop}
    (hP : ∀ m k x, P m → m.lookup k = some x → MOp.FairRun m (body (k, x)) ∧ P (afterOps m (body (k, x)))) (b : Option K)
    (ih : ∀ y, PSet.Below y b → ∀ m, P m → ∃ v r, VisitsBack body m (some y) v r) (m : FMap K V) (hm : P m) : ∃ v r, VisitsBack body m b v r := by
  obtain ⟨o, ho⟩ := PSet.prev_exists m.keys b
  cases o with
  | none => exact ⟨_, _, .done m b ho⟩
  | some k =>
    obtain ⟨x, hx⟩ := lookup_of_keys ho.1
    obtain ⟨hf, hm'⟩ := hP m k x hm hx
    by_cases hk : KeepsPlace b m (body (k, x))
    · obtain ⟨o', ho'⟩ := PSet.prev_exists (afterOps m (body (k, x))).keys b
      cases o' with
      | none => exact ⟨_, _, .front m b k x ho hx hf hk ho'⟩
      | some y =>
        obtain ⟨v, r, h⟩ := ih y ho'.2.1 _ hm'
        exact ⟨_, _, .visit m b k x y v r ho hx hf hk ho' h⟩
    · exact ⟨_, _, .lost m b k x ho hx hf hk⟩

/-- C93, reverse loops over a dictionary. -/
theorem C93_dict_reverse_partial [WellFoundedLT K] (body : K × V → List (MOp K V)) (P : FMap K V → Prop)
    (hP : ∀ m k x, P m → m.lookup k = some x → MOp.FairRun m (body (k, x)) ∧ P (afterOps m (body (k, x)))) (s : Nodes K V) (W : s.WF)
    (m : FMap K V) (hs : Holds s.pairs m) (h : P m) :
    (∃ v s', Returns (fun j => Nodes.loopBack ltOf body j .last s []) (v, s')) ∨
      ∃ e, HitsUB (fun j => Nodes.loopBack ltOf body j .last s []) e := by
  have some' : ∀ y, ∀ m, P m → ∃ v r, VisitsBack body m (some y) v r := by
    intro y
    induction y using WellFoundedLT.induction with
    | ind y ih => exact fun m hm => back_exist hP (some y) (fun z hz => ih z hz) m hm
  obtain ⟨v, r, hv⟩ := back_exist hP none (fun y _ => some' y) m h
  cases r with
  | error e => exact .inr ⟨e, (C91_dict_partial body s W m hs v).2 e hv⟩
  | ok t =>
    obtain ⟨s', -, hr⟩ := (C91_dict_partial body s W m hs v).1 t hv
    exact .inl ⟨v, s', hr⟩

/-- A body that never grows the dictionary, on any type of keys. -/
example : ∀ (m : FMap ℕ ℕ) (k x : ℕ), True → m.lookup k = some x → MOp.FairRun m [.assign k (x + 1), .remove (k + 1)] ∧ True := by
  intro m k x _ h
  have : k ∈ m := Finmap.lookup_isSome.1 (by rw [h]; rfl)
  simp [MOp.FairRun, MOp.Fair, MOp.abs, this]

end PDict

/-! ## Lists -/

namespace Lst

variable {α : Type} [BEq α] [Inhabited α] {grow : ℕ → ℕ → ℕ}

theorem walk_exist {mem : Mem} {body : α → List (VOp α)} {go : List (VOp α) → Vec α → ℕ → Prop} {P : Vec α → Prop}
    (hP : ∀ s x, P s → x ∈ s.l → ∃ s', VOp.run mem grow (body x) s = some s' ∧ P s') (hl : ∀ s, P s → s.l.length ≤ maxLen) :
    ∀ (n : ℕ) (s : Vec α) (i : ℕ), maxLen - i = n → P s → ∃ v r, Walk mem grow body go s i v r := by
  intro n
  induction n with
  | zero => intro s i hn hs; exact ⟨_, _, .done s i (by have := hl s hs; omega)⟩
  | succ n ih =>
    intro s i hn hs
    by_cases hi : i < s.l.length
    · have hx := List.getElem?_eq_getElem hi
      obtain ⟨s', hr, hs'⟩ := hP s _ hs (List.getElem_mem hi)
      by_cases hg : go (body s.l[i]) s i
      · obtain ⟨v, r, h⟩ := ih s' (i + 1) (by omega) hs'
        exact ⟨_, _, .visit s s' i _ v r hx hr (hl _ hs') hg h⟩
      · exact ⟨_, _, .lost s s' i _ hx hr hg⟩
    · exact ⟨_, _, .done s i (by omega)⟩

/-- C93, lists: a loop by index comes to an end, after at most `INT_MAX` rounds, whatever the bodies do to the list within its bounds. -/
theorem C93_list_index (mem : Mem) (hg : ∀ c n, n ≤ grow c n) (body : α → List (VOp α)) (P : Vec α → Prop)
    (hP : ∀ s x, P s → x ∈ s.l → ∃ s', VOp.run mem grow (body x) s = some s' ∧ P s') (hl : ∀ s, P s → s.l.length ≤ maxLen)
    (s : Vec α) (W : s.WF) (h : P s) : ∃ v t, Returns (fun k => Vec.indexLoop mem grow body k 0 s []) (v, t) := by
  obtain ⟨v, r, hv⟩ := walk_exist (go := fun _ _ _ => True) hP hl _ s 0 rfl h
  obtain ⟨t, -, hr⟩ := C89_index mem hg body s W (hl s h) v r hv
  exact ⟨v, t, hr⟩

/-- C93, lists: so does a loop with iterators and a range-based one, unless it is undefined. -/
theorem C93_list_iter_partial (mem : Mem) (hg : ∀ c n, n ≤ grow c n) (body : α → List (VOp α)) (P : Vec α → Prop)
    (hP : ∀ s x, P s → x ∈ s.l → ∃ s', VOp.run mem grow (body x) s = some s' ∧ P s') (hl : ∀ s, P s → s.l.length ≤ maxLen)
    (s : Vec α) (W : s.WF) (h : P s) :
    ((∃ v t, Returns (fun k => Vec.iterLoop mem grow body k s.begin s []) (v, t)) ∨
      HitsUB (fun k => Vec.iterLoop mem grow body k s.begin s []) .badDeref) ∧
    ((∃ v t, Returns (fun k => Vec.rangeLoop mem grow body s.end k s.begin s []) (v, t)) ∨
      HitsUB (fun k => Vec.rangeLoop mem grow body s.end k s.begin s []) .badDeref) := by
  constructor
  · obtain ⟨v, r, hv⟩ := walk_exist (go := fun ops s i => VOp.Stays mem grow i ops s) hP hl _ s 0 rfl h
    cases r with
    | none => exact .inr ((C89_iter_partial mem hg body s W v).2 hv)
    | some t => exact .inl ⟨v, t, (C89_iter_partial mem hg body s W v).1 t hv⟩
  · obtain ⟨v, r, hv⟩ := walk_exist (go := fun ops s _ => VOp.AllStill mem grow ops s) hP hl _ s 0 rfl h
    cases r with
    | none => exact .inr ((C89_range_partial mem hg body s W v).2 hv)
    | some t => exact .inl ⟨v, t, (C89_range_partial mem hg body s W v).1 t hv⟩

/-- Bodies that only assign or exchange meet the hypotheses. -/
example (grow : ℕ → ℕ → ℕ) : (∀ (s : Vec ℕ) (x : ℕ), s.WF ∧ s.l.length ≤ maxLen → x ∈ s.l →
    ∃ s', VOp.run .lenient grow [.op .reverse, .op (.rotL 1)] s = some s' ∧ s'.WF ∧ s'.l.length ≤ maxLen) ∧ three.WF ∧ three.l.length ≤ maxLen := by
  refine ⟨fun s x h _ => ?_, three_wf, by decide⟩
  obtain ⟨s', h1, h2, h3, -⟩ := inPlace_run (grow := grow) [.op .reverse, .op (.rotL 1)] h.1 h.2 (by
    intro o ho l
    rcases List.mem_cons.1 ho with rfl | ho
    · trivial
    · rw [List.mem_singleton.1 ho]; exact (by decide : IsInt 1))
  exact ⟨s', h1, h2, by omega⟩

end Lst

/-! ## Deques -/

namespace Dq

variable {α : Type}

theorem walk_exist {body : α → List (DOp α)} {next : List (DOp α) → List α → ℕ → Option ℕ} {P : List α → Prop} {rest : List α → ℕ → ℕ}
    (hP : ∀ d x, P d → x ∈ d → DOp.FairRun d (body x) ∧ P (DOp.absRun d (body x)).2)
    (hn : ∀ d x i j, P d → d[i]? = some x → next (body x) d i = some j → rest (DOp.absRun d (body x)).2 (j + 1) < rest d i) :
    ∀ (n : ℕ) (d : List α) (i : ℕ), rest d i = n → P d → ∃ v r, Walk body next d i v r := by
  intro n
  induction n using Nat.strong_induction_on with
  | _ n ih =>
    intro d i hr hd
    by_cases hi : i < d.length
    · have hx := List.getElem?_eq_getElem hi
      obtain ⟨hf, hd'⟩ := hP d _ hd (List.getElem_mem hi)
      cases hj : next (body d[i]) d i with
      | none => exact ⟨_, _, .lost d i _ hx hf hj⟩
      | some j =>
        obtain ⟨v, r, h⟩ := ih _ (hr ▸ hn d _ i j hd hx hj) _ _ rfl hd'
        exact ⟨_, _, .visit d i j _ v r hx hf hj h⟩
    · exact ⟨_, _, .done d i (by omega)⟩

/-- C93, deques: a loop by index comes to an end, after at most `INT_MAX` rounds. -/
theorem C93_deque_index (body : α → List (DOp α)) (P : List α → Prop)
    (hP : ∀ d x, P d → x ∈ d → DOp.FairRun d (body x) ∧ P (DOp.absRun d (body x)).2) (hl : ∀ d, P d → d.length ≤ maxLen)
    (s : Iters α) (W : s.c.WF) (h : P s.vals) : ∃ v s', Returns (fun k => Iters.indexLoop body k 0 s []) (v, s') := by
  obtain ⟨v, r, hv⟩ := walk_exist (next := fun _ _ i => some i) (rest := fun _ i => maxLen - i) hP (fun d x i j hd hx hj => by
    have := hl d hd
    have := (List.getElem?_eq_some_iff.1 hx).1
    cases hj
    omega) _ s.vals 0 rfl h
  obtain ⟨t, s', -, -, hr⟩ := C92_index body s W v r hv
  exact ⟨v, s', hr⟩

theorem hold_rest {e : Bool} {d : List α} {i j : ℕ} {op : DOp α} (h : hold e d i op = some j) (hi : i < d.length) :
    j < (after d op).length ∧ (after d op).length + i ≤ d.length + j := by
  unfold hold at h
  split at h
  · cases h
  · rename_i hc
    have hc : Inserts d op ≠ true := fun h => hc (by rw [h]; rfl)
    cases op with
    | pushBack x =>
      cases h
      have hd : d.length = maxLen := by simpa [Inserts] using hc
      simp [after, DOp.abs, hd]
      omega
    | pushFront x =>
      have hd : d.length = maxLen := by simpa [Inserts] using hc
      simp only [follow, if_pos hd] at h
      cases h
      simp [after, DOp.abs, hd]
      omega
    | extendBack m =>
      cases h
      have hm : m = [] := by simpa [Inserts] using hc
      simp [after, DOp.abs, hm, hi]
    | extendFront m =>
      cases h
      have hm : m = [] := by simpa [Inserts] using hc
      simp [after, DOp.abs, hm, hi]
    | popFront =>
      simp only [follow] at h
      split at h
      · cases h
      · cases h
        obtain ⟨x, d, rfl⟩ := List.exists_cons_of_ne_nil (List.ne_nil_of_length_pos (by omega : 0 < d.length))
        simp [after, DOp.abs] at hi ⊢
        omega
    | popBack =>
      simp only [follow] at h
      split at h
      · cases h
      · rename_i hne
        cases h
        obtain ⟨d, x, rfl⟩ : ∃ e x, d = e ++ [x] :=
          ⟨_, _, (List.dropLast_append_getLast (List.ne_nil_of_length_pos (by omega : 0 < d.length))).symm⟩
        simp [after, DOp.abs] at hi hne ⊢
        omega
    | clear => cases h
    | back => cases h; simp only [after, DOp.abs]; cases d.getLast? <;> exact ⟨hi, le_rfl⟩
    | front => cases h; simp only [after, DOp.abs]; cases d.head? <;> exact ⟨hi, le_rfl⟩
    | get n => cases h; simp only [after, DOp.abs]; cases pyIndex d.length n <;> exact ⟨hi, le_rfl⟩
    | assign n x => cases h; simp only [after, DOp.abs]; cases pyIndex d.length n <;> simp [hi]
    | rotL n => cases h; simp [after, DOp.abs, rotated_length, hi]
    | rotR n => cases h; simp [after, DOp.abs, rotated_length, hi]
    | reverse => cases h; simp [after, DOp.abs, hi]

theorem holdAll_rest {e : Bool} : ∀ (ops : List (DOp α)) {d : List α} {i j : ℕ} (_ : holdAll e ops d i = some j) (_ : i < d.length),
    (DOp.absRun d ops).2.length + i ≤ d.length + j
  | [], d, i, j, h, hi => by
    cases h
    exact le_rfl
  | op :: ops, d, i, j, h, hi => by
    obtain ⟨k, hk, h⟩ := Option.bind_eq_some_iff.1 h
    obtain ⟨a, b⟩ := hold_rest hk hi
    have c := holdAll_rest ops h a
    have e : (DOp.absRun d (op :: ops)).2 = (DOp.absRun (after d op) ops).2 := by
      unfold after
      rw [DOp.absRun]
      split <;> rename_i hs <;> rw [hs]
    rw [e]
    omega

/-- C93, deques: so does a loop with iterators and a range-based one, unless it is undefined: what may be visited yet never grows. -/
theorem C93_deque_iter_partial (body : α → List (DOp α)) (P : List α → Prop)
    (hP : ∀ d x, P d → x ∈ d → DOp.FairRun d (body x) ∧ P (DOp.absRun d (body x)).2) (s : Iters α) (W : s.c.WF) (h : P s.vals) :
    ((∃ v s', Returns (fun k => Iters.iterLoop body k s.begin s []) (v, s')) ∨ HitsUB (fun k => Iters.iterLoop body k s.begin s []) .badDeref) ∧
    ((∃ v s', Returns (fun k => Iters.rangeLoop body s.end k s.begin s []) (v, s')) ∨
      HitsUB (fun k => Iters.rangeLoop body s.end k s.begin s []) .badDeref) := by
  have hw : ∀ e, ∃ v r, Walk body (holdAll e) s.vals 0 v r := fun e =>
    walk_exist (rest := fun d i => d.length - i) hP (fun d x i j _ hx hj => by
      have hi := (List.getElem?_eq_some_iff.1 hx).1
      have := holdAll_rest _ hj hi
      omega) _ s.vals 0 rfl h
  constructor
  · obtain ⟨v, r, hv⟩ := hw false
    cases r with
    | none => exact .inr ((C92_iter_partial body s W v).2 hv)
    | some t =>
      obtain ⟨s', -, hr⟩ := (C92_iter_partial body s W v).1 t hv
      exact .inl ⟨v, s', hr⟩
  · obtain ⟨v, r, hv⟩ := hw true
    cases r with
    | none => exact .inr ((C92_range_partial body s W v).2 hv)
    | some t =>
      obtain ⟨s', -, hr⟩ := (C92_range_partial body s W v).1 t hv
      exact .inl ⟨v, s', hr⟩

theorem exec_push (e : List α) (x : α) (h : e.length < maxLen) : exec [.pushBack x] e = .ok (e ++ [x]) := by
  have := exec_pushes [x] e (by rw [List.length_singleton]; omega)
  rwa [List.map_singleton] at this

theorem queue_step {body : α → List (DOp α)} {e e' : List α} {x : α} (hl : (x :: e).length ≤ maxLen) (h : exec (body x) e = .ok e') (k : ℕ)
    (u : List α) : queueLoop body (k + 1) (x :: e) u = queueLoop body k e' (u ++ [x]) := by
  have hp := popFront_run (x :: e) hl
  simp only at hp
  rw [queueLoop, if_neg (show ¬ isEmpty (x :: e) = true from Bool.false_ne_true), hp]
  simp only [andThen]
  rw [h, Res.ok_bind]

theorem stack_step {body : α → List (DOp α)} {e e' : List α} {x : α} (hl : (e ++ [x]).length ≤ maxLen) (h : exec (body x) e = .ok e') (k : ℕ)
    (u : List α) : stackLoop body (k + 1) (e ++ [x]) u = stackLoop body k e' (u ++ [x]) := by
  have hp := popBack_run (e ++ [x]) hl
  simp only [List.getLast?_append_cons, List.getLast?_singleton, List.dropLast_concat] at hp
  have hne : ¬ isEmpty (e ++ [x]) = true := by unfold isEmpty; simp
  rw [stackLoop, if_neg hne, hp]
  simp only [andThen]
  rw [h, Res.ok_bind]

/-- C93 is false of loops that take the elements from one end: putting the element back, they do not come to an end on any nonempty deque. -/
theorem C93_queue_not (d : List α) (hd : d ≠ []) (hl : d.length ≤ maxLen) :
    Diverges (fun k => queueLoop (fun x => [.pushBack x]) k d []) ∧ Diverges (fun k => stackLoop (fun x => [.pushBack x]) k d []) := by
  have key : ∀ (body : α → List (DOp α)), (∀ x e, e.length < maxLen → exec (body x) e = .ok (e ++ [x])) → ∀ (k : ℕ) (d u : List α), d ≠ [] →
      d.length ≤ maxLen → queueLoop body k d u = .fuel ∧ stackLoop body k d u = .fuel := by
    intro body hb k
    induction k with
    | zero => intro d u _ _; rw [queueLoop, stackLoop]; exact ⟨rfl, rfl⟩
    | succ k ih =>
      intro d u hd hl
      constructor
      · obtain ⟨x, e, rfl⟩ := List.exists_cons_of_ne_nil hd
        have he : e.length + 1 ≤ maxLen := by rwa [List.length_cons] at hl
        rw [queue_step hl (hb x e he)]
        exact (ih _ _ (List.append_ne_nil_of_right_ne_nil _ (List.cons_ne_nil _ _)) (by rw [List.length_append, List.length_singleton]; exact he)).1
      · obtain ⟨e, x, rfl⟩ : ∃ e x, d = e ++ [x] := ⟨_, _, (List.dropLast_append_getLast hd).symm⟩
        have he : e.length + 1 ≤ maxLen := by rwa [List.length_append, List.length_singleton] at hl
        rw [stack_step hl (hb x e he)]
        exact (ih _ _ hd hl).2
  have h := fun k => key (fun x => [.pushBack x]) (fun x e h => exec_push e x h) k d [] hd hl
  exact ⟨⟨0, fun k _ => (h k).1⟩, ⟨0, fun k _ => (h k).2⟩⟩

/-- Rotating and reversing meets the hypotheses. -/
example : (∀ (d : List ℕ) (x : ℕ), d.length ≤ 5 → x ∈ d → DOp.FairRun d [.rotL 1, .reverse] ∧ (DOp.absRun d [.rotL 1, .reverse]).2.length ≤ 5) ∧
    ∀ d : List ℕ, d.length ≤ 5 → d.length ≤ maxLen :=
  ⟨fun d x h _ => ⟨⟨(by decide : IsInt 1), trivial, trivial⟩, by simpa [DOp.absRun, DOp.abs, rotated_length] using h⟩, fun d h => h.trans (by decide)⟩

end Dq
end Pyincpp
