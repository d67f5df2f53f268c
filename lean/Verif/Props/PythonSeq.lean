import Verif.Spec.PythonSeq
import Verif.Props.PythonStr
import Verif.Props.List
import Verif.Props.Dict
import Verif.Props.TuplePrint

/-! # C103: containers, compared with Python -/

namespace Pyincpp
open Lst

section lists
variable {α : Type}

/-- C103: whenever `slice` of a list returns a list it is that of Python; it throws exactly if the step is zero (as Python does) or a bound
is outside the range (where Python moves it). -/
theorem C103_slice (l : List α) (hl : l.length < maxLen) (start stop step : ℤ) (hint : IsInt step) :
    (∀ r, Returns (fun k => Lst.slice k l start stop step) r → Py.Slice l start stop step r) ∧
    ((∃ m, Throws (fun k => Lst.slice k l start stop step) m) ↔
      step = 0 ∨ ¬ (-(l.length : ℤ) ≤ start ∧ start < l.length ∧ -(l.length : ℤ) - 1 ≤ stop ∧ stop ≤ l.length)) := by
  have hT := fun k => C28_list_slice_throws k l hl start stop step
  have diff : ∀ {f : ℕ → Res (List α)} {a b : Res (List α)}, (∃ N, ∀ k, N ≤ k → f k = a) → (∃ N, ∀ k, N ≤ k → f k = b) → a = b := by
    rintro f a b ⟨N, h⟩ ⟨M, h'⟩
    rw [← h (max N M) (le_max_left _ _), h' _ (le_max_right _ _)]
  by_cases h0 : step = 0
  · have ht : Throws (fun k => Lst.slice k l start stop step) _ := ⟨0, fun k _ => (hT k).1 h0⟩
    exact ⟨fun r hr => (by cases diff ht hr), fun _ => .inl h0, fun _ => ⟨_, ht⟩⟩
  by_cases hr : -(l.length : ℤ) ≤ start ∧ start < l.length ∧ -(l.length : ℤ) - 1 ≤ stop ∧ stop ≤ l.length
  · obtain ⟨h1, h2, h3, h4⟩ := hr
    have key : (∃ r, Py.Slice l start stop step r ∧ Returns (fun k => Lst.slice k l start stop step) r) ∨
        HitsUB (fun k => Lst.slice k l start stop step) .overflow := by
      by_cases hno : ∀ j : Nat, Before step ((if start < 0 then start + (l.length : ℤ) else start) + j * step) (if stop < 0 then stop + l.length else stop) →
          (if start < 0 then start + (l.length : ℤ) else start) + (j + 1) * step ≤ INT_MAX
      · obtain ⟨r, ha, hb⟩ := C28_list_slice_partial l hl start stop step h0 hint h1 h2 h3 h4 _ _ rfl rfl hno
        exact .inl ⟨r, Py.slice_of_isSlice h1 h2 h3 h4 ha, hb⟩
      · refine .inr ?_
        push Not at hno
        exact C28_list_slice_overflow l hl start stop step h0 h1 h2 h3 h4 _ _ rfl rfl hno
    refine ⟨fun r hr => ?_, ⟨?_, fun h => ?_⟩⟩
    · rcases key with ⟨r', ha, hb⟩ | hu
      · rw [hr.unique hb]; exact ha
      · cases diff hu hr
    · rintro ⟨m, hm⟩
      rcases key with ⟨r', ha, hb⟩ | hu
      · cases diff hm hb
      · cases diff hm hu
    · exact absurd h (by simp [h0, h1, h2, h3, h4])
  · have ht : Throws (fun k => Lst.slice k l start stop step) _ := ⟨0, fun k _ => (hT k).2 h0 hr⟩
    exact ⟨fun r hr => (by cases diff ht hr), fun _ => .inr hr, fun _ => ⟨_, ht⟩⟩

/-- C103: `insert` is that of Python exactly if the index is from `-size` to `size`; otherwise it throws and changes nothing. -/
theorem C103_insert (l : List α) (hl : l.length < maxLen) (i : ℤ) (e : α) :
    (-(l.length : ℤ) ≤ i ∧ i ≤ l.length → Lst.insert i e l = (.ok (), Py.insert l i e)) ∧
    (¬ (-(l.length : ℤ) ≤ i ∧ i ≤ l.length) → Lst.insert i e l = (.throw msgIndex, l)) := by
  constructor
  · intro h
    have hp : pyInsertPoint l.length i = some (Py.clip l.length 1 i).toNat := by
      unfold pyInsertPoint pyIndex Py.clip
      split_ifs <;> first | (exact congrArg some (by omega)) | omega
    rw [Lst.insert_some hl hp]; rfl
  · intro h
    refine Lst.insert_none hl ?_
    unfold pyInsertPoint pyIndex
    split_ifs <;> first | rfl | omega

/-- C103: `index` with bounds `0 <= start <= min(stop, size)` finds what that of Python finds, and gives -1 where Python raises `ValueError`;
with all other bounds it is undefined. -/
theorem C103_index [DecidableEq α] (l : List α) (hl : l.length ≤ maxLen) (e : α) (start stop : ℤ) :
    (0 ≤ start ∧ start ≤ min stop l.length →
      (∃ i : ℕ, Py.Index l e start stop i ∧ Lst.index l e start stop = .ok i) ∨
      ((∀ i, ¬ Py.Index l e start stop i) ∧ Lst.index l e start stop = .ok (-1))) ∧
    (¬ (0 ≤ start ∧ start ≤ min stop l.length) → Lst.index l e start stop = .ub .badRange) := by
  refine ⟨fun ⟨h1, h2⟩ => ?_, C40_list_index_not l hl e start stop⟩
  have hin : ∀ i : ℕ, Py.Inside l.length start stop i ↔ start ≤ i ∧ (i : ℤ) < stop ∧ i < l.length := by
    intro i
    unfold Py.Inside Py.clip
    split_ifs <;> omega
  obtain ⟨r, h, -, h3⟩ := C40_list_index_partial l hl e start stop h1 h2
  rcases h3 with ⟨rfl, hno⟩ | ⟨p, rfl, h4, h5, h6, h7⟩
  · refine .inr ⟨fun i hi => ?_, h⟩
    obtain ⟨a, b, -⟩ := hi
    rw [hin] at a
    exact hno i a.1 a.2.1 b
  · refine .inl ⟨p, ⟨(hin p).2 ⟨h4, h5, (List.getElem?_eq_some_iff.1 h6).1⟩, h6, ?_⟩, h⟩
    intro j hj hjp
    exact h7 j ((hin j).1 hj).1 hjp

/-- C103: `l * n` is that of Python exactly if `n` is not negative and the result has fewer than `INT_MAX` elements. -/
theorem C103_repeat [Inhabited α] (l : List α) (hl : l.length ≤ maxLen) (n : ℤ) :
    Lst.mul l n = .ok (List.replicate n.toNat l).flatten ↔ 0 ≤ n ∧ l.length * n < INT_MAX := by
  have h := C34_list_repeat_partial l hl n
  constructor
  · intro e
    by_cases h0 : 0 ≤ n
    · refine ⟨h0, ?_⟩
      have h' := C34_list_repeat_not l hl n h0
      rcases lt_trichotomy ((l.length : ℤ) * n) INT_MAX with hc | hc | hc
      · exact hc
      · rw [h'.2 hc] at e; cases e
      · rw [h'.1 hc] at e; cases e
    · rw [h.2 (by omega)] at e; cases e
  · rintro ⟨a, b⟩; exact (h.1 a b).1

end lists

/-! ## Dictionaries -/

section dicts
variable {K V : Type} [LinearOrder K]

theorem lookup_eq_some {d : List (K × V)} (hd : Increasing kLt d) (k : K) (v : V) : d.lookup k = some v ↔ (k, v) ∈ d := by
  induction d with
  | nil => simp
  | cons p t ih =>
    obtain ⟨h1, h2⟩ := List.pairwise_cons.1 hd
    rw [List.lookup_cons]
    by_cases hk : k = p.1
    · subst hk
      simp only [beq_self_eq_true, Option.some.injEq, List.mem_cons]
      constructor
      · rintro rfl; exact .inl rfl
      · rintro (h | h)
        · rw [← h]
        · exact absurd (h1 _ h) (by simp [kLt, PDict.keyLt, ltOf])
    · have : (k == p.1) = false := by simpa using hk
      simp only [this, ih h2, List.mem_cons]
      constructor
      · exact .inr
      · rintro (h | h)
        · exact absurd (congrArg Prod.fst h) hk
        · exact h

theorem lookup_insertAll (k : K) : ∀ (xs d : List (K × V)), Increasing kLt d → (Tree.insertAll kLt xs d).lookup k = (d ++ xs).lookup k
  | [], d, _ => by simp [Tree.insertAll]
  | x :: xs, d, hd => by
    obtain ⟨i1, -, i2, -⟩ := Tree.insert_mem kLt_strictWeak x d hd
    have e : (Tree.insert kLt x d).1.lookup k = (d ++ [x]).lookup k := by
      ext v
      rw [lookup_eq_some i2, i1, has_kLt, List.lookup_append]
      cases hl : d.lookup k with
      | some w =>
        simp only [Option.some_or, Option.some.injEq]
        have hw := (lookup_eq_some hd k w).1 hl
        constructor
        · rintro (h | ⟨rfl, h⟩)
          · exact key_unique hd hw h
          · exact absurd ⟨w, hw⟩ h
        · rintro rfl; exact .inl hw
      | none =>
        have hn : ∀ w, (k, w) ∉ d := fun w h => by rw [(lookup_eq_some hd k w).2 h] at hl; cases hl
        rw [Option.none_or, List.lookup_cons, List.lookup_nil]
        constructor
        · rintro (h | ⟨rfl, h⟩)
          · exact absurd h (hn v)
          · simp
        · intro h
          by_cases hk : k = x.1
          · subst hk
            simp only [beq_self_eq_true, Option.some.injEq] at h
            exact .inr ⟨by rw [← h], by rintro ⟨w, hw⟩; exact hn w hw⟩
          · have : (k == x.1) = false := by simpa using hk
            rw [this] at h; cases h
    have := lookup_insertAll k xs (Tree.insert kLt x d).1 i2
    change (Tree.insertAll kLt xs (Tree.insert kLt x d).1).lookup k = _
    rw [this, List.lookup_append, e, ← List.lookup_append, List.append_assoc]
    rfl

theorem Py.lookup_setItem (d : List (K × V)) (p : K × V) (k : K) : (Py.setItem d p).lookup k = if k = p.1 then some p.2 else d.lookup k := by
  unfold Py.setItem
  split
  · next h =>
    induction d with
    | nil => simp at h
    | cons q t ih =>
      rw [List.map_cons, List.lookup_cons, List.lookup_cons]
      by_cases hq : q.1 = p.1
      · rw [if_pos hq]
        by_cases hk : k = p.1
        · simp [hk]
        · have hb : (k == p.1) = false := by simpa using hk
          rw [if_neg hk, hq, hb]
          by_cases ht : p.1 ∈ t.map Prod.fst
          · rw [ih ht, if_neg hk]
          · have : t.map (fun q => if q.1 = p.1 then p else q) = t := by
              conv_rhs => rw [← List.map_id t]
              refine List.map_congr_left fun r hr => ?_
              rw [if_neg]
              · rfl
              intro e; exact ht (e ▸ List.mem_map_of_mem hr)
            rw [this]
      · rw [if_neg hq]
        have ht : p.1 ∈ t.map Prod.fst := by
          rw [List.map_cons, List.mem_cons] at h
          exact h.resolve_left fun e => hq e.symm
        rw [ih ht]
        by_cases hk : k = p.1
        · have : (k == q.1) = false := by rw [hk]; simpa using Ne.symm hq
          rw [this, if_pos hk]
        · rw [if_neg hk, if_neg hk]
  · next h =>
    rw [List.lookup_append, List.lookup_cons, List.lookup_nil]
    by_cases hk : k = p.1
    · have : d.lookup k = none := by
        rw [List.lookup_eq_none_iff]
        intro q hq
        simp only [bne_iff_ne, ne_eq]
        rintro rfl
        exact h (hk ▸ List.mem_map_of_mem hq)
      rw [this, if_pos hk]; simp [hk]
    · have : (k == p.1) = false := by simpa using hk
      rw [this, if_neg hk]; simp

theorem Py.lookup_update (k : K) (d xs : List (K × V)) : (Py.update d xs).lookup k = (xs.reverse.lookup k).or (d.lookup k) := by
  unfold Py.update
  induction xs generalizing d with
  | nil => simp
  | cons x xs ih =>
    rw [List.foldl_cons, ih, List.reverse_cons, List.lookup_append, Py.lookup_setItem, List.lookup_cons, List.lookup_nil]
    by_cases hk : k = x.1
    · simp [hk]
    · have : (k == x.1) = false := by simpa using hk
      simp [hk, this]

/-- C103: after `extend` every key has the value it has in Python after `update` exactly if the last value given for a key is also the
first one, that of the dictionary included: the code keeps the first, Python the last. -/
theorem C103_dict_update (d e xs : List (K × V)) (hd : Increasing kLt d) (h : PDict.extend ltOf xs d = (.ok (), e)) :
    (∀ k, e.lookup k = (Py.update d xs).lookup k) ↔ ∀ k v, xs.reverse.lookup k = some v → (d ++ xs).lookup k = some v := by
  have he : e = Tree.insertAll kLt xs d := by
    have : PDict.extend ltOf xs d = (.ok (), Tree.insertAll kLt xs d) := rfl
    rw [this] at h
    exact (congrArg Prod.snd h).symm
  subst he
  refine forall_congr' fun k => ?_
  rw [lookup_insertAll k xs d hd, Py.lookup_update]
  constructor
  · intro h v hv; rw [h, hv]; rfl
  · intro h
    cases hx : xs.reverse.lookup k with
    | some v => rw [h v hx]; rfl
    | none =>
      have : xs.lookup k = none := by
        rw [List.lookup_eq_none_iff] at hx ⊢
        exact fun p hp => hx p (List.mem_reverse.2 hp)
      rw [List.lookup_append, this]; simp

/-- C103: the constructors, likewise. -/
theorem C103_dict_construct (xs : List (K × V)) :
    (∀ k, (PDict.ofRange ltOf xs).lookup k = (Py.update [] xs).lookup k) ↔ ∀ k, xs.lookup k = xs.reverse.lookup k := by
  refine forall_congr' fun k => ?_
  have : (PDict.ofRange ltOf xs).lookup k = xs.lookup k := lookup_insertAll k xs [] List.Pairwise.nil
  rw [this, Py.lookup_update]
  simp

/-- `{1: "a", 1: "b"}` has the value "a", in Python "b". -/
theorem C103_dict_not : (PDict.ofRange ltOf [(1, 97), (1, 98)] : List (ℕ × ℕ)) = [(1, 97)] ∧ Py.update [] [(1, 97), (1, 98)] = [(1, 98)] := by
  decide

theorem Py.keys_setItem (d : List (K × V)) (p : K × V) :
    (Py.setItem d p).map Prod.fst = if p.1 ∈ d.map Prod.fst then d.map Prod.fst else d.map Prod.fst ++ [p.1] := by
  unfold Py.setItem
  split
  · rw [List.map_map]
    refine List.map_congr_left fun q _ => ?_
    simp only [Function.comp]
    split
    · next h => exact h.symm
    · rfl
  · simp

theorem Py.mem_keys_update (k : K) (xs : List (K × V)) : k ∈ (Py.update [] xs).map Prod.fst ↔ k ∈ xs.map Prod.fst := by
  induction xs using List.reverseRecOn with
  | nil => simp [Py.update]
  | append_singleton xs p ih =>
    have : Py.update [] (xs ++ [p]) = Py.setItem (Py.update [] xs) p := by simp [Py.update]
    rw [this, Py.keys_setItem]
    split
    · next h =>
      rw [ih, List.map_append, List.mem_append]
      refine ⟨.inl, ?_⟩
      rintro (h' | h')
      · exact h'
      · rw [List.map_singleton, List.mem_singleton] at h'; subst h'; exact ih.1 h
    · simp only [List.mem_append, ih, List.map_append, List.map_singleton]

/-- C103: a new dictionary has the order of iteration that it has in Python exactly if every key that is new where it stands is greater
than all before it: the code goes by the keys, Python by the time of insertion. -/
theorem C103_dict_order (xs : List (K × V)) :
    (PDict.ofRange ltOf xs).map Prod.fst = (Py.update [] xs).map Prod.fst ↔
      ∀ pre p suf, xs = pre ++ p :: suf → p.1 ∈ pre.map Prod.fst ∨ ∀ q ∈ pre, q.1 < p.1 := by
  have hc := C46_dict_construct xs
  have hsorted : ((PDict.ofRange ltOf xs).map Prod.fst).Pairwise (· < ·) := by
    have := increasing_keys.1 hc.1
    refine this.imp ?_
    intro a b h
    simpa [ltOf] using h
  have hmem : ∀ k, k ∈ (PDict.ofRange ltOf xs).map Prod.fst ↔ k ∈ (Py.update [] xs).map Prod.fst := by
    intro k
    rw [Py.mem_keys_update]
    have e := lookup_insertAll k xs [] List.Pairwise.nil
    rw [List.nil_append] at e
    have hk : ∀ d : List (K × V), k ∈ d.map Prod.fst ↔ d.lookup k ≠ none := by
      intro d
      rw [Ne, List.lookup_eq_none_iff]
      simp only [List.mem_map, bne_iff_ne, ne_eq, not_forall, not_not]
      constructor
      · rintro ⟨p, hp, rfl⟩; exact ⟨p, hp, rfl⟩
      · rintro ⟨p, hp, e⟩; exact ⟨p, hp, e.symm⟩
    rw [hk, hk, ← e]; rfl
  have h1 : (PDict.ofRange ltOf xs).map Prod.fst = (Py.update [] xs).map Prod.fst ↔ ((Py.update [] xs).map Prod.fst).Pairwise (· < ·) := by
    constructor
    · intro h; rw [← h]; exact hsorted
    · intro h
      refine List.Perm.eq_of_pairwise (le := (· < ·)) (fun a b _ _ h h' => absurd h' h.asymm) hsorted h ?_
      exact (List.perm_ext_iff_of_nodup (hsorted.imp fun h => h.ne) (h.imp fun h => h.ne)).2 hmem
  rw [h1]
  clear h1 hmem hsorted hc
  induction xs using List.reverseRecOn with
  | nil => simp [Py.update]
  | append_singleton xs p ih =>
    have : Py.update [] (xs ++ [p]) = Py.setItem (Py.update [] xs) p := by simp [Py.update]
    rw [this, Py.keys_setItem]
    have step : (∀ pre q suf, xs ++ [p] = pre ++ q :: suf → q.1 ∈ pre.map Prod.fst ∨ ∀ r ∈ pre, r.1 < q.1) ↔
        (∀ pre q suf, xs = pre ++ q :: suf → q.1 ∈ pre.map Prod.fst ∨ ∀ r ∈ pre, r.1 < q.1) ∧
        (p.1 ∈ xs.map Prod.fst ∨ ∀ r ∈ xs, r.1 < p.1) := by
      constructor
      · intro h
        exact ⟨fun pre q suf e => h pre q (suf ++ [p]) (by rw [e]; simp), h xs p [] rfl⟩
      · rintro ⟨ha, hb⟩ pre q suf e
        rcases List.eq_nil_or_concat suf with rfl | ⟨suf', z, rfl⟩
        · obtain ⟨rfl, e'⟩ := List.append_inj' e rfl
          cases e'; exact hb
        · rw [List.concat_eq_append, ← List.cons_append, ← List.append_assoc] at e
          obtain ⟨e', -⟩ := List.append_inj' e rfl
          exact ha pre q suf' e'
    rw [step]
    refine Iff.trans ?_ (and_congr ih Iff.rfl)
    split
    · next h =>
      rw [Py.mem_keys_update] at h
      simp [h]
    · next h =>
      rw [List.pairwise_append]
      have h' := h
      rw [Py.mem_keys_update] at h'
      simp only [h', false_or, List.pairwise_singleton, true_and, List.mem_singleton, forall_eq, and_congr_right_iff]
      intro _
      constructor
      · intro hh r hr
        exact hh r.1 ((Py.mem_keys_update _ _).2 (List.mem_map_of_mem hr))
      · intro hh a ha
        rw [Py.mem_keys_update, List.mem_map] at ha
        obtain ⟨r, hr, rfl⟩ := ha
        exact hh r hr

/-- C103: `pop` takes the pair with the least key, Python the one inserted last: they are the same exactly if that has the least key. -/
theorem C103_popitem (d d' : List (K × V)) (p : K × V) (hd : Increasing kLt d) (hl : d.length ≤ maxLen) (h : List.Perm (d' ++ [p]) d) :
    (∃ r, PDict.pop d = (.ok p, r)) ↔ ∀ q ∈ d', p.1 < q.1 := by
  cases d with
  | nil => exact absurd h.length_eq (by simp)
  | cons x t =>
    have hx : ∃ r, PDict.pop (x :: t) = (.ok x, r) := by
      have hs : PDict.size (x :: t) ≠ 0 := by
        unfold PDict.size
        rw [wrap32_eq (by rw [isInt_iff]; unfold maxLen at hl; omega)]
        simp only [List.length_cons]; omega
      refine ⟨t, ?_⟩
      simp only [PDict.pop, Meth.get_bind, checkEmpty, if_neg hs, Meth.lift_ok_bind, PSet.stdBegin]
      rfl
    obtain ⟨r, hx⟩ := hx
    have hlt : ∀ q ∈ t, x.1 < q.1 := fun q hq => by
      have := (List.pairwise_cons.1 hd).1 q hq
      simpa [kLt, PDict.keyLt, ltOf] using this
    constructor
    · rintro ⟨r', e⟩
      rw [hx] at e
      obtain rfl : x = p := Res.ok.inj (Prod.mk.inj e).1
      intro q hq
      have h' : List.Perm d' t := (List.perm_cons x).1 ((List.perm_append_singleton x d').symm.trans h)
      exact hlt q (h'.mem_iff.1 hq)
    · intro hp
      refine ⟨r, ?_⟩
      rw [hx]
      have hxm : x ∈ d' ++ [p] := h.mem_iff.2 (by simp)
      rcases List.mem_append.1 hxm with hm | hm
      · have h1 := hp x hm
        have h2 : p ∈ x :: t := h.mem_iff.1 (by simp)
        rcases List.mem_cons.1 h2 with rfl | h2
        · exact absurd h1 (lt_irrefl _)
        · exact absurd (hlt p h2) h1.asymm
      · rw [List.mem_singleton.1 hm]

end dicts

/-- C103: a set is printed as in Python, the elements being given, exactly if it is not empty: the empty one is `{}`, in Python `set()`. -/
theorem C103_print_set {α : Type} (shown : α → List UInt8) (l : List α) : PSet.print shown l = .ok (Py.reprSet shown l) ↔ l ≠ [] := by
  rw [(C60_containers shown shown shown l []).2.2.1]
  have hg : ∀ ts : List (List UInt8), glue [44, 32] ts = List.intercalate [44, 32] ts := by
    intro ts
    induction ts with
    | nil => rfl
    | cons a ts ih =>
      cases ts with
      | nil => simp [glue, List.intercalate]
      | cons b ts =>
        rw [glue, ih]
        simp [List.intercalate, List.intersperse]
  cases l with
  | nil =>
    simp only [ne_eq, not_true, iff_false]
    intro h
    exact absurd (congrArg List.length (Res.ok.inj h)) (by simp [Bracketed, Py.reprSet, List.intercalate])
  | cons a t =>
    simp only [ne_eq, reduceCtorEq, not_false_iff, iff_true]
    have : Py.reprSet shown (a :: t) = 123 :: glue [44, 32] ((a :: t).map shown) ++ [125] := rfl
    rw [this, hg]
    rfl

example : Increasing (kLt (K := ℕ) (V := ℕ)) [(1, 5), (2, 3)] := by unfold Increasing; decide
example : PDict.extend ltOf [(3, 1)] ([(1, 5)] : List (ℕ × ℕ)) = (.ok (), [(1, 5), (3, 1)]) := by decide
example : Py.update [(2, 1)] [(1, 5), (2, 3)] = ([(2, 3), (1, 5)] : List (ℕ × ℕ)) := by decide
example : Py.insert [10, 20] (-1) 15 = [10, 15, 20] := by decide

end Pyincpp
