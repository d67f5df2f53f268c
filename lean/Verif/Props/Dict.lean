import Verif.Spec.Dict
import Verif.Props.Set

/-! # Properties of `Dict` (C41, C46, C47, C48) -/

namespace Pyincpp
open Lst

variable {K V : Type}

/-! ## The map operations -/

theorem keyLt_strictWeak {lt : K → K → Bool} (W : StrictWeak lt) : StrictWeak (PDict.keyLt (V := V) lt) where
  irrefl a := W.irrefl a.1
  trans a b c := W.trans a.1 b.1 c.1
  incomp a b c := W.incomp a.1 b.1 c.1

theorem mapFind_eq (lt : K → K → Bool) (k : K) (d : List (K × V)) :
    PDict.mapFind lt k d = Tree.find lt k (d.map Prod.fst) := by
  induction d with
  | nil => rfl
  | cons p ps ih => simp only [PDict.mapFind, List.map_cons, Tree.find, ih]

theorem mapErase_eq (lt : K → K → Bool) (k : K) (v : V) (d : List (K × V)) :
    PDict.mapErase lt k d = Tree.erase (PDict.keyLt lt) (k, v) d := by
  induction d with
  | nil => rfl
  | cons p ps ih => simp only [PDict.mapErase, Tree.erase, ih, PDict.keyLt]; rfl

theorem increasing_keys {lt : K → K → Bool} {d : List (K × V)} :
    Increasing (PDict.keyLt lt) d ↔ Increasing lt (d.map Prod.fst) := by
  unfold Increasing
  rw [List.pairwise_map]; rfl

section linear
variable [LinearOrder K]

/-- The order of the map. -/
abbrev kLt : K × V → K × V → Bool := PDict.keyLt ltOf

theorem eqv_kLt {p q : K × V} : Eqv kLt p q ↔ p.1 = q.1 := by
  have : Eqv (kLt (K := K) (V := V)) p q ↔ Eqv ltOf p.1 q.1 := Iff.rfl
  rw [this, eqv_ltOf]

theorem has_kLt {d : List (K × V)} {p : K × V} : Has kLt d p ↔ ∃ v, (p.1, v) ∈ d := by
  unfold Has
  constructor
  · rintro ⟨q, hq, e⟩
    rw [eqv_kLt] at e
    exact ⟨q.2, by rw [e]; exact hq⟩
  · rintro ⟨v, h⟩; exact ⟨_, h, eqv_kLt.2 rfl⟩

theorem kLt_strictWeak : StrictWeak (kLt (K := K) (V := V)) := keyLt_strictWeak ltOf_strictWeak

theorem key_unique {d : List (K × V)} (hd : Increasing kLt d) {k : K} {v w : V} (h : (k, v) ∈ d) (h' : (k, w) ∈ d) : v = w := by
  have := hd.eqv_eq kLt_strictWeak h h' (eqv_kLt.2 rfl)
  exact congrArg Prod.snd this

theorem Holds.mem {d : List (K × V)} {m : FMap K V} (h : Holds d m) (k : K) : k ∈ m ↔ ∃ v, (k, v) ∈ d := by
  rw [← Finmap.lookup_isSome, Option.isSome_iff_exists]
  exact exists_congr (fun v => (h k v).symm)

theorem Holds.keys {d : List (K × V)} {m : FMap K V} (h : Holds d m) : m.keys = (d.map Prod.fst).toFinset := by
  ext k
  rw [Finmap.mem_keys, h.mem]; simp

theorem Holds.card {d : List (K × V)} {m : FMap K V} (h : Holds d m) (hd : Increasing kLt d) : m.keys.card = d.length := by
  rw [h.keys, (increasing_keys.1 hd).card, List.length_map]

theorem Holds.lookup_none {d : List (K × V)} {m : FMap K V} (h : Holds d m) {k : K} (hk : ∀ v, (k, v) ∉ d) : m.lookup k = none := by
  cases hl : m.lookup k with
  | none => rfl
  | some v => exact absurd ((h k v).2 hl) (hk v)

theorem holds_insert {d : List (K × V)} {m : FMap K V} (hd : Increasing kLt d) (h : Holds d m) (p : K × V) :
    Holds (Tree.insert kLt p d).1 (m.addNew p) := by
  obtain ⟨i1, -, -, -⟩ := Tree.insert_mem kLt_strictWeak p d hd
  intro k v
  rw [i1, has_kLt]
  unfold FMap.addNew
  by_cases hp : p.1 ∈ m
  · rw [if_pos hp, ← h k v]
    constructor
    · rintro (h' | ⟨-, h'⟩)
      · exact h'
      · exact absurd ((h.mem p.1).1 hp) h'
    · exact .inl
  · rw [if_neg hp]
    have hn : ¬ ∃ v, (p.1, v) ∈ d := fun e => hp ((h.mem p.1).2 e)
    by_cases hk : k = p.1
    · subst hk
      rw [Finmap.lookup_insert]
      constructor
      · rintro (h' | ⟨e, -⟩)
        · exact absurd ⟨v, h'⟩ hn
        · rw [← e]
      · intro e; right; refine ⟨?_, hn⟩
        injection e with e; rw [← e]
    · rw [Finmap.lookup_insert_of_ne _ hk, ← h k v]
      constructor
      · rintro (h' | ⟨e, -⟩)
        · exact h'
        · exact absurd (by rw [← e]) hk
      · exact .inl

theorem holds_insertAll (xs : List (K × V)) : ∀ {d : List (K × V)} {m : FMap K V}, Increasing kLt d → Holds d m →
    Increasing kLt (Tree.insertAll kLt xs d) ∧ Holds (Tree.insertAll kLt xs d) (xs.foldl FMap.addNew m) := by
  induction xs with
  | nil => intro d m hd h; exact ⟨hd, h⟩
  | cons x xs ih =>
    intro d m hd h
    exact ih (Tree.insert_mem kLt_strictWeak x d hd).2.2.1 (holds_insert hd h x)

theorem holds_erase {d : List (K × V)} {m : FMap K V} (hd : Increasing kLt d) (h : Holds d m) (p : K × V) :
    Holds (Tree.erase kLt p d).1 (m.erase p.1) := by
  obtain ⟨i1, -, -, -⟩ := Tree.erase_mem kLt_strictWeak p d hd
  intro k v
  rw [i1, eqv_kLt]
  by_cases hk : k = p.1
  · subst hk; simp
  · rw [Finmap.lookup_erase_ne hk, ← h k v]
    exact ⟨fun e => e.1, fun e => ⟨e, fun e' => hk e'.symm⟩⟩

/-- `find` gives the place of the pair with the key. -/
theorem PDict.find_run {d : List (K × V)} {m : FMap K V} (hd : Increasing kLt d) (h : Holds d m) (k : K) :
    match m.lookup k with
    | some v => ∃ i, PDict.mapFind ltOf k d = some i ∧ d[i]? = some (k, v)
    | none => PDict.mapFind ltOf k d = none := by
  rw [mapFind_eq]
  have hs := Tree.find_spec ltOf_strictWeak k (d.map Prod.fst) (increasing_keys.1 hd)
  cases hf : Tree.find ltOf k (d.map Prod.fst) with
  | none =>
    rw [hf] at hs
    simp only [has_ltOf] at hs
    rw [h.lookup_none (k := k) (fun v hv => hs (List.mem_map.2 ⟨_, hv, rfl⟩))]
  | some i =>
    rw [hf] at hs
    obtain ⟨y, hy, e⟩ := hs
    rw [eqv_ltOf] at e
    subst e
    rw [List.getElem?_map, Option.map_eq_some_iff] at hy
    obtain ⟨⟨k', v⟩, hp, rfl⟩ := hy
    rw [(h k' v).1 (List.mem_of_getElem? hp)]
    exact ⟨i, rfl, hp⟩

theorem vget_some {α : Type} {l : List α} {i : Nat} {x : α} (h : l[i]? = some x) : vget l i = .ok x := by
  obtain ⟨hi, e⟩ := List.getElem?_eq_some_iff.1 h
  rw [vget_ok (by omega)]; simp [e]

theorem PDict.get_run {d : List (K × V)} {m : FMap K V} (hd : Increasing kLt d) (h : Holds d m) (k : K) :
    PDict.get ltOf d k = match m.lookup k with | some v => .ok v | none => .throw msgKey := by
  have := PDict.find_run hd h k
  cases hl : m.lookup k with
  | none => rw [hl] at this; simp only [PDict.get, PDict.refAt, this, Res.throw_bind, msgKey]
  | some v =>
    rw [hl] at this
    obtain ⟨i, e1, e2⟩ := this
    simp only [PDict.get, PDict.refAt, e1, Res.ok_bind, vget_some e2]; rfl

theorem PDict.contains_run {d : List (K × V)} {m : FMap K V} (hd : Increasing kLt d) (h : Holds d m) (k : K) :
    PDict.contains ltOf d k = decide (k ∈ m) := by
  have := PDict.find_run hd h k
  unfold PDict.contains
  cases hl : m.lookup k with
  | none =>
    rw [hl] at this
    have hk : k ∉ m := Finmap.lookup_eq_none.1 hl
    simp [this, hk]
  | some v =>
    rw [hl] at this
    obtain ⟨i, e1, -⟩ := this
    have hk : k ∈ m := Finmap.mem_of_lookup_eq_some hl
    simp [e1, hk]

theorem holds_assign {d : List (K × V)} {m : FMap K V} (hd : Increasing kLt d) (h : Holds d m) {k : K} {w : V} {i : Nat}
    (hi : d[i]? = some (k, w)) (v : V) : Increasing kLt (d.set i (k, v)) ∧ Holds (d.set i (k, v)) (m.insert k v) := by
  obtain ⟨hlt, hget⟩ := List.getElem?_eq_some_iff.1 hi
  have hkeys : (d.set i (k, v)).map Prod.fst = d.map Prod.fst := by
    rw [List.map_set]
    apply List.ext_getElem (by simp)
    intro n h1 h2
    rw [List.getElem_set]
    split
    · next e => subst e; simp [hget]
    · rfl
  have hinc : Increasing kLt (d.set i (k, v)) := by rw [increasing_keys, hkeys]; exact increasing_keys.1 hd
  refine ⟨hinc, fun k' v' => ?_⟩
  have hnew : (k, v) ∈ d.set i (k, v) := List.mem_iff_getElem.2 ⟨i, by simpa using hlt, by simp⟩
  by_cases hk : k' = k
  · subst hk
    rw [Finmap.lookup_insert]
    constructor
    · intro h'; rw [key_unique hinc h' hnew]
    · intro e; injection e with e; rw [← e]; exact hnew
  · rw [Finmap.lookup_insert_of_ne _ hk, ← h k' v']
    constructor
    · intro h'
      rcases List.mem_or_eq_of_mem_set h' with h' | h'
      · exact h'
      · exact absurd (congrArg Prod.fst h') hk
    · intro h'
      obtain ⟨j, hj, e⟩ := List.mem_iff_getElem.1 h'
      refine List.mem_iff_getElem.2 ⟨j, by simpa using hj, ?_⟩
      rw [List.getElem_set, if_neg, e]
      rintro rfl
      rw [hget] at e
      exact hk (congrArg Prod.fst e).symm

omit [LinearOrder K] in
theorem PDict.size_ok {d : List (K × V)} (h : d.length ≤ maxLen) : PDict.size d = d.length := by
  have : wrap32 (d.length : Int) = d.length := Lst.size_eq h
  exact this

theorem least_cons {p : K × V} {ps : List (K × V)} {m : FMap K V} (hd : Increasing kLt (p :: ps)) (h : Holds (p :: ps) m) :
    m.least = some p := by
  have hne : m.keys.Nonempty := ⟨p.1, by rw [h.keys]; simp⟩
  have hmin : m.keys.min' hne = p.1 := by
    apply le_antisymm
    · exact Finset.min'_le _ _ (by rw [h.keys]; simp)
    · refine Finset.le_min' _ _ _ (fun y hy => ?_)
      rw [h.keys, List.mem_toFinset, List.map_cons, List.mem_cons] at hy
      rcases hy with rfl | hy
      · exact le_refl _
      · have := increasing_ltOf.1 (increasing_keys.1 hd)
        rw [List.map_cons, List.pairwise_cons] at this
        exact le_of_lt (this.1 y hy)
  unfold FMap.least
  rw [dif_pos hne, hmin, (h p.1 p.2).1 (by simp)]; rfl

theorem least_nil {m : FMap K V} (h : Holds [] m) : m.least = none := by
  unfold FMap.least
  rw [dif_neg]
  rw [h.keys]; simp

/-! ## C46 -/

/-- One operation against the abstract map. -/
theorem dict_step (op : MOp K V) (d : List (K × V)) (m : FMap K V) (hd : Increasing kLt d) (hl : d.length ≤ maxLen) (h : Holds d m)
    (hf : op.Fair m) :
    match op.abs m with
    | .ok (r, m') => ∃ d', op.step ltOf d = (.ok r, d') ∧ Increasing kLt d' ∧ d'.length ≤ maxLen ∧ Holds d' m'
    | .error e => op.step ltOf d = (.throw e, d) := by
  have W : StrictWeak (kLt (K := K) (V := V)) := kLt_strictWeak
  cases op with
  | add k v =>
    simp only [MOp.abs, MOp.step, h.card hd]
    obtain ⟨-, i2, i3, i4⟩ := Tree.insert_mem W (k, v) d hd
    by_cases hc : d.length = maxLen
    · rw [if_pos hc]
      have hz : PDict.size d = INT_MAX := by rw [PDict.size_ok hl, hc]; unfold maxLen INT_MAX; omega
      exact Meth.run_throw (by simp only [PDict.add, Meth.get_bind, hz, checkFull_throw (Int.le_refl INT_MAX), Meth.lift_throw_bind])
    · rw [if_neg hc]
      have hz : checkFull (PDict.size d) INT_MAX = .ok () := by
        rw [PDict.size_ok hl]; exact checkFull_ok (by unfold INT_MAX; unfold maxLen at *; omega)
      have hb : (Tree.insert kLt (k, v) d).2 = decide (k ∉ m) := by
        rw [Bool.eq_iff_iff, i2, has_kLt, decide_eq_true_eq, h.mem]
      refine ⟨(Tree.insert kLt (k, v) d).1, ?_, i3, ?_, holds_insert hd h (k, v)⟩
      · rw [← hb]
        exact Meth.run_ok (by simp only [PDict.add, Meth.get_bind, hz, Meth.lift_ok_bind, Meth.set_bind, Meth.pure_run])
      · rw [i4]; split <;> omega
  | remove k =>
    simp only [MOp.abs, MOp.step]
    by_cases hd0 : d = []
    · subst hd0
      have hk : k ∉ m := by rw [h.mem]; simp
      refine ⟨[], ?_, hd, hl, ?_⟩
      · have hr : PDict.remove ltOf k ([] : List (K × V)) = (.ok false, []) := rfl
        rw [Meth.run_ok hr]; simp [hk]
      · intro k' v'
        by_cases e : k' = k
        · subst e; simp
        · rw [Finmap.lookup_erase_ne e]; exact h k' v'
    · obtain ⟨p, ps, rfl⟩ := List.exists_cons_of_ne_nil hd0
      obtain ⟨-, i2, i3, i4⟩ := Tree.erase_mem W (k, p.2) (p :: ps) hd
      have hb : ((Tree.erase kLt (k, p.2) (p :: ps)).2 == 1) = decide (k ∈ m) := by
        rw [i2, Bool.eq_iff_iff, decide_eq_true_eq, h.mem]
        have := has_kLt (d := p :: ps) (p := (k, p.2))
        by_cases hh : Has kLt (p :: ps) (k, p.2)
        · rw [if_pos hh]; exact ⟨fun _ => this.1 hh, fun _ => rfl⟩
        · rw [if_neg hh]; exact ⟨fun e => absurd e (by decide), fun e => absurd (this.2 e) hh⟩
      refine ⟨(Tree.erase kLt (k, p.2) (p :: ps)).1, ?_, i3, by omega, holds_erase hd h (k, p.2)⟩
      rw [← hb]
      exact Meth.run_ok (by
        simp only [PDict.remove, Meth.get_bind, Meth.set_bind, Meth.pure_run, mapErase_eq ltOf k p.2])
  | assign k v =>
    simp only [MOp.abs, MOp.step]
    have hfind := PDict.find_run hd h k
    by_cases hk : k ∈ m
    · rw [if_pos hk]
      obtain ⟨w, hw⟩ := Option.isSome_iff_exists.1 (Finmap.lookup_isSome.2 hk)
      rw [hw] at hfind
      obtain ⟨i, e1, e2⟩ := hfind
      obtain ⟨a1, a2⟩ := holds_assign hd h e2 v
      refine ⟨d.set i (k, v), ?_, a1, by simpa using hl, a2⟩
      exact Meth.run_ok (a := ()) (by
        simp only [PDict.assign, Meth.get_bind, PDict.refAt, e1, Meth.lift_ok_bind, vget_some e2, Meth.set_run])
    · rw [if_neg hk]
      rw [Finmap.lookup_eq_none.2 hk] at hfind
      exact Meth.run_throw (by
        simp only [PDict.assign, Meth.get_bind, PDict.refAt, hfind, Meth.lift_throw_bind, msgKey])
  | get k =>
    simp only [MOp.abs, MOp.step, Meth.get_bind, PDict.get_run hd h k]
    cases m.lookup k with
    | none => rfl
    | some v => exact ⟨d, rfl, hd, hl, h⟩
  | getOr k v =>
    simp only [MOp.abs, MOp.step, Meth.get_bind, PDict.getOr, PDict.contains_run hd h k, PDict.get_run hd h k]
    cases hlk : m.lookup k with
    | none =>
      have hk : k ∉ m := Finmap.lookup_eq_none.1 hlk
      exact ⟨d, by simp [hk], hd, hl, h⟩
    | some w =>
      have hk : k ∈ m := Finmap.mem_of_lookup_eq_some hlk
      exact ⟨d, by simp [hk], hd, hl, h⟩
  | contains k =>
    simp only [MOp.abs, MOp.step, Meth.get_bind, PDict.contains_run hd h k]
    exact ⟨d, rfl, hd, hl, h⟩
  | pop =>
    simp only [MOp.abs, MOp.step]
    cases d with
    | nil =>
      rw [least_nil h]
      exact Meth.run_throw (by
        have : checkEmpty (PDict.size ([] : List (K × V))) = .throw msgEmpty := by rw [PDict.size_ok (by simp)]; rfl
        simp only [PDict.pop, Meth.get_bind, this, Meth.lift_throw_bind])
    | cons p ps =>
      rw [least_cons hd h]
      have hce : checkEmpty (PDict.size (p :: ps)) = .ok () := by
        rw [PDict.size_ok hl]; exact checkEmpty_ok (by simp; omega)
      have hb : PSet.stdBegin (p :: ps) = .ok p := by simp [PSet.stdBegin, vget]
      have he := holds_erase hd h p
      have hps : (Tree.erase kLt p (p :: ps)).1 = ps := by
        have : (kLt p p : Bool) = false := W.irrefl p
        simp [Tree.erase, this]
      rw [hps] at he
      refine ⟨ps, ?_, (Increasing.cons.1 hd).2, by simp at hl; omega, he⟩
      exact Meth.run_ok (by
        simp only [PDict.pop, Meth.get_bind, hce, Meth.lift_ok_bind, hb, Meth.set_bind, Meth.pure_run, List.drop_succ_cons, List.drop_zero])
  | size =>
    simp only [MOp.abs, MOp.step, h.card hd, ← PDict.size_ok hl]
    exact ⟨d, rfl, hd, hl, h⟩
  | extend xs =>
    simp only [MOp.abs, MOp.step]
    obtain ⟨i1, i2⟩ := holds_insertAll xs hd h
    refine ⟨Tree.insertAll kLt xs d, rfl, i1, ?_, i2⟩
    rw [← i2.card i1]; exact hf
  | clear =>
    simp only [MOp.abs, MOp.step]
    exact ⟨[], rfl, List.Pairwise.nil, by simp, fun k v => by simp⟩

/-- C46, for every history of fair operations from every dictionary (`Fair` excludes growth beyond `INT_MAX` through `extend`,
which does not check it: the defect below). Every result and exception is the one of the abstract map, and the pairs held are
those of the abstract map, in increasing order of the keys. -/
theorem C46_dict_history_partial (ops : List (MOp K V)) (d : List (K × V)) (m : FMap K V) (hd : Increasing kLt d)
    (hl : d.length ≤ maxLen) (h : Holds d m) (hf : MOp.FairRun m ops) :
    (MOp.run ltOf ops d).1 = (MOp.absRun m ops).1.map seen ∧
    (MOp.run ltOf ops d).2.Pairwise (fun p q => p.1 < q.1) ∧
    (∀ k v, (k, v) ∈ (MOp.run ltOf ops d).2 ↔ (MOp.absRun m ops).2.lookup k = some v) := by
  induction ops generalizing d m with
  | nil =>
    refine ⟨rfl, ?_, h⟩
    have := increasing_ltOf.1 (increasing_keys.1 hd)
    rwa [List.pairwise_map] at this
  | cons op ops ih =>
    obtain ⟨hfair, hrest⟩ := hf
    have hstep := dict_step op d m hd hl h hfair
    cases habs : op.abs m with
    | ok x =>
      obtain ⟨r, m'⟩ := x
      simp only [habs] at hstep hrest
      obtain ⟨d', e, h1, h2, h3⟩ := hstep
      obtain ⟨k1, k2, k3⟩ := ih d' m' h1 h2 h3 hrest
      simp only [MOp.run, MOp.absRun, habs, e, List.map_cons, seen]
      exact ⟨by rw [k1], k2, k3⟩
    | error e =>
      simp only [habs] at hstep hrest
      obtain ⟨k1, k2, k3⟩ := ih d m hd hl h hrest
      simp only [MOp.run, MOp.absRun, habs, hstep, List.map_cons, seen]
      exact ⟨by rw [k1], k2, k3⟩

/-- Every dictionary holds some map; the constructors keep the first pair with a key. -/
theorem C46_dict_construct (xs : List (K × V)) :
    Increasing kLt (PDict.ofRange ltOf xs) ∧ Holds (PDict.ofRange ltOf xs) (xs.foldl FMap.addNew ∅) :=
  holds_insertAll xs (d := []) (m := ∅) List.Pairwise.nil (fun k v => by simp)

example : MOp.run ltOf [.add 2 "b", .add 1 "a", .add 2 "c", .assign 1 "z", .get 1, .get 3, .getOr 3 "d", .remove 5, .pop, .size, .extend [(2, "q"), (0, "r")]]
      ([] : List (Nat × String)) =
    ([.ok (.bool true), .ok (.bool true), .ok (.bool false), .ok .unit, .ok (.val "z"), .throw msgKey, .ok (.val "d"), .ok (.bool false),
      .ok (.pair (1, "z")), .ok (.int 1), .ok .unit], [(0, "r"), (2, "b")]) := by decide +kernel

/-- Every history without `extend` is fair. -/
theorem fairRun_of_no_extend (ops : List (MOp K V)) (m : FMap K V) (h : ∀ op ∈ ops, ∀ xs, op ≠ .extend xs) : MOp.FairRun m ops := by
  induction ops generalizing m with
  | nil => trivial
  | cons op ops ih =>
    refine ⟨?_, ?_⟩
    · cases op <;> first | trivial | exact absurd rfl (h _ List.mem_cons_self _)
    · cases op.abs m with
      | ok x => exact ih _ (fun o ho => h o (by simp [ho]))
      | error e => exact ih _ (fun o ho => h o (by simp [ho]))

example : MOp.FairRun (∅ : FMap Nat String) [.extend [(2, "b"), (1, "a"), (2, "c")], .pop, .assign 1 "z", .get 1, .size] := by
  refine ⟨?_, fairRun_of_no_extend _ _ (by simp)⟩
  show (Finmap.keys (List.foldl FMap.addNew ∅ [(2, "b"), (1, "a"), (2, "c")])).card ≤ maxLen
  rw [(C46_dict_construct [(2, "b"), (1, "a"), (2, "c")]).2.card (C46_dict_construct _).1]
  decide +kernel

/-- C41 and C46 are false of the code for `extend`: it does not check the size, and `size()` becomes negative. -/
theorem C41_dict_extend_not (d : List (K × V)) (hd : Increasing kLt d) (hl : d.length = maxLen) (k : K) (v : V)
    (hk : ∀ w, (k, w) ∉ d) : PDict.size (PDict.extend ltOf [(k, v)] d).2 = -2147483648 := by
  obtain ⟨-, i2, -, i4⟩ := Tree.insert_mem kLt_strictWeak (k, v) d hd
  have e1 : (PDict.extend ltOf [(k, v)] d).2 = (Tree.insert kLt (k, v) d).1 := by
    simp [PDict.extend, Tree.insertAll]
  have hlen : (Tree.insert kLt (k, v) d).1.length = 2147483648 := by
    have : (Tree.insert kLt (k, v) d).2 = true := by rw [i2, has_kLt]; rintro ⟨w, hw⟩; exact hk w hw
    rw [i4, this, if_pos rfl, hl]; unfold maxLen; omega
  rw [e1]; unfold PDict.size; rw [hlen]; decide

example : Increasing kLt ((List.range maxLen).map (fun i => (i, 'x'))) ∧ ((List.range maxLen).map (fun i => (i, 'x'))).length = maxLen ∧
    ∀ w, (maxLen, w) ∉ (List.range maxLen).map (fun i => (i, 'x')) := by
  refine ⟨?_, by simp, by simp⟩
  rw [increasing_keys, List.map_map]
  have : (Prod.fst ∘ fun i : Nat => (i, 'x')) = id := rfl
  rw [this, List.map_id]
  exact increasing_ltOf.2 List.pairwise_lt_range

/-- C41 for `Dict::add`. -/
theorem C41_dict_add (d : List (K × V)) (hd : Increasing kLt d) (hl : d.length ≤ maxLen) (k : K) (v : V) :
    0 ≤ PDict.size d ∧
    ((d.length < maxLen ∧ (∃ b, (PDict.add ltOf k v d).1 = .ok b) ∧ (PDict.add ltOf k v d).2.length ≤ maxLen ∧
        0 ≤ PDict.size (PDict.add ltOf k v d).2) ∨
     (d.length = maxLen ∧ PDict.add ltOf k v d = (.throw "Error: The container has reached the maximum size.", d))) := by
  refine ⟨by rw [PDict.size_ok hl]; omega, ?_⟩
  by_cases h : d.length = maxLen
  · right
    have hz : PDict.size d = INT_MAX := by rw [PDict.size_ok hl, h]; unfold maxLen INT_MAX; omega
    exact ⟨h, by simp only [PDict.add, Meth.get_bind, hz, checkFull_throw (Int.le_refl INT_MAX), Meth.lift_throw_bind, msgFull]⟩
  · left
    have hz : checkFull (PDict.size d) INT_MAX = .ok () := by
      rw [PDict.size_ok hl]; exact checkFull_ok (by unfold INT_MAX; unfold maxLen at *; omega)
    have e' : PDict.add ltOf k v d = (.ok (Tree.insert kLt (k, v) d).2, (Tree.insert kLt (k, v) d).1) := by
      simp only [PDict.add, Meth.get_bind, hz, Meth.lift_ok_bind, Meth.set_bind, Meth.pure_run]
    have hlen : (Tree.insert kLt (k, v) d).1.length ≤ maxLen := by
      rw [(Tree.insert_mem kLt_strictWeak (k, v) d hd).2.2.2]; split <;> omega
    rw [e']
    exact ⟨by omega, ⟨_, rfl⟩, hlen, by rw [PDict.size_ok hlen]; omega⟩

/-! ## C48 -/

/-- C48 for a dictionary that is not empty. -/
theorem C48_minmax_partial (d : List (K × V)) (hd : Increasing kLt d) (hne : d ≠ []) :
    (∃ k, PDict.min d = .ok k ∧ (∃ v, (k, v) ∈ d) ∧ ∀ p ∈ d, k ≤ p.1) ∧
    (∃ k, PDict.max d = .ok k ∧ (∃ v, (k, v) ∈ d) ∧ ∀ p ∈ d, p.1 ≤ k) := by
  have hpw : d.Pairwise (fun p q => p.1 < q.1) := by
    have := increasing_ltOf.1 (increasing_keys.1 hd)
    rwa [List.pairwise_map] at this
  have hpos : 0 < d.length := List.length_pos_iff.2 hne
  constructor
  · obtain ⟨p, ps, rfl⟩ := List.exists_cons_of_ne_nil hne
    refine ⟨p.1, by simp [PDict.min, PSet.stdBegin, vget], ⟨p.2, by simp⟩, fun q hq => ?_⟩
    rcases List.mem_cons.1 hq with rfl | hq
    · exact le_refl _
    · exact le_of_lt ((List.pairwise_cons.1 hpw).1 q hq)
  · have hg := vget_ok (v := d) (i := d.length - 1) (by omega)
    refine ⟨d[d.length - 1].1, ?_, ⟨d[d.length - 1].2, List.getElem_mem _⟩, fun q hq => ?_⟩
    · unfold PDict.max PSet.stdRbegin
      rw [if_neg (by omega)]
      rw [hg]; rfl
    · obtain ⟨i, hi, rfl⟩ := List.mem_iff_getElem.1 hq
      rcases Nat.lt_or_ge i (d.length - 1) with h | h
      · exact le_of_lt (List.pairwise_iff_getElem.1 hpw i (d.length - 1) hi (by omega) h)
      · have : i = d.length - 1 := by omega
        subst this; exact le_refl _

omit [LinearOrder K] in
/-- C48 is false of the code for the empty dictionary: `min` and `max` read past the end (`Set::min` and `max` check). -/
theorem C48_minmax_not : PDict.min ([] : List (K × V)) = .ub .badDeref ∧ PDict.max ([] : List (K × V)) = .ub .badDeref := by
  constructor <;> simp [PDict.min, PDict.max, PSet.stdBegin, PSet.stdRbegin]

example : Increasing kLt [(1, "x"), (3, "y")] ∧ PDict.min [(1, "x"), (3, "y")] = .ok 1 ∧ PDict.max [(1, "x"), (3, "y")] = .ok 3 := by
  refine ⟨by rw [increasing_keys]; simp [increasing_ltOf], by decide +kernel, by decide +kernel⟩

end linear

/-! ## C47 -/

theorem addAll_append {α : Type} {lt : α → α → Bool} (W : StrictWeak lt) (ys : List α) : ∀ (xs s : List α), Increasing lt s →
    s.length + xs.length ≤ maxLen → PDict.addAll lt (xs ++ ys) s = PDict.addAll lt ys (Tree.insertAll lt xs s) := by
  intro xs
  induction xs with
  | nil => intro s _ _; rfl
  | cons x xs ih =>
    intro s hs hl
    simp only [List.length_cons] at hl
    have e : PSet.size s = s.length := size_eq (l := s) (by omega)
    have hz : checkFull (PSet.size s) INT_MAX = .ok () := by
      rw [e]; exact checkFull_ok (by unfold INT_MAX; unfold maxLen at *; omega)
    obtain ⟨-, -, i3, i4⟩ := Tree.insert_mem W x s hs
    have hadd : PSet.add lt x s = (.ok (Tree.insert lt x s).2, (Tree.insert lt x s).1) := by
      simp only [PSet.add, Meth.get_bind, hz, Meth.lift_ok_bind, Meth.set_bind, Meth.pure_run]
    rw [List.cons_append, PDict.addAll, Meth.run_ok hadd]
    exact ih _ i3 (by rw [i4]; split <;> omega)

theorem addAll_run {α : Type} {lt : α → α → Bool} (W : StrictWeak lt) (xs s : List α) (hs : Increasing lt s)
    (hl : s.length + xs.length ≤ maxLen) : PDict.addAll lt xs s = (.ok (), Tree.insertAll lt xs s) := by
  have := addAll_append W [] xs s hs hl
  rw [List.append_nil] at this
  rw [this]; rfl

/-- C47: the keys, in order. -/
theorem C47_keys_partial {lt : K → K → Bool} (W : StrictWeak lt) (d : List (K × V)) (hd : Increasing (PDict.keyLt lt) d)
    (hl : d.length ≤ maxLen) : PDict.keys lt d = .ok (d.map Prod.fst) := by
  unfold PDict.keys
  rw [addAll_run W _ _ List.Pairwise.nil (by simpa using hl)]
  have := Tree.insertAll_increasing W (d.map Prod.fst) [] (by simpa using increasing_keys.1 hd)
  simp [this]

/-- C47: the values; equivalent values appear once. -/
theorem C47_values_partial {ltV : V → V → Bool} (W : StrictWeak ltV) (d : List (K × V)) (hl : d.length ≤ maxLen) :
    ∃ s, PDict.values ltV d = .ok s ∧ Increasing ltV s ∧ (∀ v, Has ltV s v ↔ ∃ p ∈ d, Eqv ltV v p.2) ∧
      ∀ v ∈ s, ∃ k, (k, v) ∈ d := by
  unfold PDict.values
  rw [addAll_run W _ _ List.Pairwise.nil (by simpa using hl)]
  obtain ⟨i1, i2, -, i4⟩ := Tree.insertAll_spec W (d.map Prod.snd) [] List.Pairwise.nil
  refine ⟨_, rfl, i1, fun v => ?_, fun v hv => ?_⟩
  · rw [i2]
    constructor
    · rintro (h | ⟨y, hy, e⟩)
      · exact absurd h has_nil
      · obtain ⟨p, hp, rfl⟩ := List.mem_map.1 hy
        exact ⟨p, hp, e⟩
    · rintro ⟨p, hp, e⟩
      exact .inr ⟨p.2, List.mem_map.2 ⟨p, hp, rfl⟩, e⟩
  · have := i4 v hv
    simpa using this

theorem pairLt_strictWeak {lt : K → K → Bool} {ltV : V → V → Bool} (W : StrictWeak lt) (X : StrictWeak ltV) :
    StrictWeak (PDict.pairLt lt ltV) where
  irrefl a := by simp [PDict.pairLt, W.irrefl, X.irrefl]
  trans a b c := by
    simp only [PDict.pairLt, Bool.or_eq_true, Bool.and_eq_true, Bool.not_eq_true']
    rintro (h | ⟨h, h'⟩) (g | ⟨g, g'⟩)
    · exact .inl (W.trans _ _ _ h g)
    · left
      cases hbc : lt b.1 c.1 with
      | true => exact W.trans _ _ _ h hbc
      | false => exact W.lt_of_lt_eqv h ⟨hbc, g⟩
    · left
      cases hab : lt a.1 b.1 with
      | true => exact W.trans _ _ _ hab g
      | false => exact W.lt_of_eqv_lt ⟨hab, h⟩ g
    · cases hac : lt a.1 c.1 with
      | true => exact .inl rfl
      | false =>
        right
        refine ⟨?_, X.trans _ _ _ h' g'⟩
        cases hca : lt c.1 a.1 with
        | false => rfl
        | true =>
          cases hab : lt a.1 b.1 with
          | true => have := W.trans _ _ _ hca hab; rw [g] at this; cases this
          | false => have := W.lt_of_lt_eqv hca ⟨hab, h⟩; rw [g] at this; cases this
  incomp a b c := by
    simp only [PDict.pairLt, Bool.or_eq_false_iff, Bool.and_eq_false_iff, Bool.not_eq_false']
    rintro ⟨h1, h2⟩ ⟨h3, h4⟩ ⟨h5, h6⟩ ⟨h7, h8⟩
    have v1 : ltV a.2 b.2 = false := h2.resolve_left (by rw [h3]; decide)
    have v2 : ltV b.2 a.2 = false := h4.resolve_left (by rw [h1]; decide)
    have v3 : ltV b.2 c.2 = false := h6.resolve_left (by rw [h7]; decide)
    have v4 : ltV c.2 b.2 = false := h8.resolve_left (by rw [h5]; decide)
    have k := W.incomp _ _ _ h1 h3 h5 h7
    have x := X.incomp _ _ _ v1 v2 v3 v4
    exact ⟨⟨k.1, .inr x.1⟩, ⟨k.2, .inr x.2⟩⟩

/-- C47: the items. -/
theorem C47_items_partial {lt : K → K → Bool} {ltV : V → V → Bool} (W : StrictWeak lt) (X : StrictWeak ltV) (d : List (K × V))
    (hd : Increasing (PDict.keyLt lt) d) (hl : d.length ≤ maxLen) : PDict.items lt ltV d = .ok d := by
  unfold PDict.items
  have P := pairLt_strictWeak W X
  rw [addAll_run P _ _ List.Pairwise.nil (by simpa using hl)]
  have hi : Increasing (PDict.pairLt lt ltV) d := List.Pairwise.imp (fun {a b} h => by
    have : lt a.1 b.1 = true := h
    simp [PDict.pairLt, this]) hd
  have := Tree.insertAll_increasing P d [] (by simpa using hi)
  simp [this]

/-- C47 is false of the code for a dictionary of more than `INT_MAX` pairs, which `extend` builds: `keys()` throws. -/
theorem C47_keys_not {lt : K → K → Bool} (W : StrictWeak lt) (d : List (K × V)) (hd : Increasing (PDict.keyLt lt) d)
    (hl : d.length = maxLen + 1) : PDict.keys lt d = .throw "Error: The container has reached the maximum size." := by
  have hk := increasing_keys.1 hd
  obtain ⟨xs, x, hx⟩ : ∃ xs x, d.map Prod.fst = xs ++ [x] := by
    have : d.map Prod.fst ≠ [] := by intro h; have := congrArg List.length h; simp [hl] at this
    exact ⟨_, _, (List.dropLast_append_getLast this).symm⟩
  have hlx : xs.length = maxLen := by
    have := congrArg List.length hx
    simp [hl] at this; omega
  rw [hx] at hk
  have hxs : Increasing lt xs := (List.pairwise_append.1 hk).1
  have h1 := addAll_append W [x] xs [] List.Pairwise.nil (by simp [hlx])
  have h2 := Tree.insertAll_increasing W xs [] (by simpa using hxs)
  rw [h2, List.nil_append] at h1
  have hs : PSet.size xs = INT_MAX := by
    have : PSet.size xs = xs.length := size_eq (l := xs) (by omega)
    rw [this, hlx]; unfold maxLen INT_MAX; omega
  have h3 : PSet.add lt x xs = (.throw msgFull, xs) := by
    simp only [PSet.add, Meth.get_bind, hs, checkFull_throw (Int.le_refl INT_MAX), Meth.lift_throw_bind]
  have h4 : PDict.addAll lt [x] xs = (.throw msgFull, xs) := by
    rw [PDict.addAll, Meth.run_throw h3]
  unfold PDict.keys
  have e : (d.map fun x => x.1) = xs ++ [x] := hx
  rw [e, h1, h4, msgFull]

example : PDict.keys ltOf [(1, 'b'), (2, 'a'), (5, 'b')] = .ok [1, 2, 5] ∧
    PDict.values (fun a b => decide (a < b)) [(1, 'b'), (2, 'a'), (5, 'b')] = .ok ['a', 'b'] ∧
    PDict.items ltOf (fun a b => decide (a < b)) [(1, 'b'), (2, 'a'), (5, 'b')] = .ok [(1, 'b'), (2, 'a'), (5, 'b')] := by
  decide +kernel

end Pyincpp
