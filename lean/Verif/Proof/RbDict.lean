import Verif.Proof.RbSet

/-! # `Dict` on the trees of libstdc++ -/

namespace Pyincpp
namespace BT

variable {K V : Type} {lt : K → K → Bool} {B : Balancer (K × V)}

theorem setVal_elems (v : V) : ∀ {t : BT (K × V)} {j : Nat} {p : K × V}, t.elems[j]? = some p → (setVal v t j).elems = t.elems.set j (p.1, v)
  | leaf, j, p, h => by simp [elems] at h
  | node c l x r, j, p, h => by
    rcases place_cases (lt_size h) with h1 | h1 | ⟨i, h1, h2⟩
    · rw [get_left h1] at h
      rw [setVal, if_pos h1, elems, setVal_elems v h, elems, List.set_append_left _ _ h1]
    · subst h1
      rw [get_mid] at h
      cases h
      rw [setVal, if_neg (by omega), if_pos rfl, elems, elems, List.set_append_right _ _ (by unfold size; omega),
        show l.size - l.elems.length = 0 by unfold size; omega]; rfl
    · subst h1
      rw [get_right] at h
      rw [setVal, if_neg (by omega), if_neg (by omega), show l.size + 1 + i - l.size - 1 = i by omega, elems, setVal_elems v h, elems,
        List.set_append_right _ _ (by unfold size; omega), show l.size + 1 + i - l.elems.length = i + 1 by unfold size; omega]; rfl

theorem setVal_bal (v : V) {t : BT (K × V)} {c : Bool} {h : Nat} (H : Bal t c h) : ∀ j, Bal (setVal v t j) c h := by
  induction H with
  | leaf => intro j; exact .leaf
  | red a b iha ihb =>
    intro j
    rw [setVal]
    split
    · exact .red (iha _) b
    · split
      · exact .red a b
      · exact .red a (ihb _)
  | black a b iha ihb =>
    intro j
    rw [setVal]
    split
    · exact .black (iha _) b
    · split
      · exact .black a b
      · exact .black a (ihb _)

theorem set_increasing {L : List (K × V)} {j : Nat} {p : K × V} (v : V) (h : Increasing (PDict.keyLt lt) L) (hp : L[j]? = some p) :
    Increasing (PDict.keyLt lt) (L.set j (p.1, v)) := by
  have q : (L.set j (p.1, v)).map Prod.fst = L.map Prod.fst := by
    rw [List.map_set]
    apply List.ext_getElem?
    intro i
    rw [List.getElem?_set]
    split
    · next e =>
      subst e
      obtain ⟨hl, rfl⟩ := List.getElem?_eq_some_iff.mp hp
      simp [hl]
    · rfl
  have m : ∀ L : List (K × V), Increasing (PDict.keyLt lt) L ↔ (L.map Prod.fst).Pairwise (fun a b => lt a b = true) := by
    intro L
    rw [List.pairwise_map]; rfl
  rw [m, q, ← m]; exact h

/-- The calls of the comparator that a method of a dictionary of `n` elements may make. -/
def dictCost (n : Nat) : MOp K V → Nat
  | .add _ _ => 2 * Nat.log 2 (n + 1) + 2
  | .remove _ => 4 * Nat.log 2 (n + 1)
  | .assign _ _ | .get _ | .contains _ => 2 * Nat.log 2 (n + 1) + 1
  | .getOr _ _ => 4 * Nat.log 2 (n + 1) + 2
  | .extend xs => xs.length * (2 * Nat.log 2 (n + xs.length + 1) + 3)
  | .pop | .size | .clear => 0

theorem find_dict (W : StrictWeak lt) (k : K) {t : BT (K × V)} (hR : RB t) (hI : Increasing (PDict.keyLt lt) t.elems) (n : Nat) :
    ∃ d, d ≤ 2 * Nat.log 2 (t.size + 1) + 1 ∧
      onTree (fun t => do pure (t, ← find Prod.fst (Ans lt) k t)) (t, n) = (.ok ((PDict.mapFind lt k t.elems).getD t.size), (t, n + d)) ∧
      ∀ j, PDict.mapFind lt k t.elems = some j → j < t.size := by
  have hh := height_le hR
  obtain ⟨d, b, e1, e2⟩ := find_ok (key := Prod.fst) W k hI n
  rw [findK_fst] at e1 e2
  exact ⟨d, by omega, onTree_ok (by rw [mb e1]; rfl), e2⟩

theorem hasKey_ok (W : StrictWeak lt) (k : K) {t : BT (K × V)} (hR : RB t) (hI : Increasing (PDict.keyLt lt) t.elems) (n : Nat) :
    ∃ d, d ≤ 2 * Nat.log 2 (t.size + 1) + 1 ∧ hasKey (Ans lt) k (t, n) = (.ok (PDict.contains lt t.elems k), (t, n + d)) := by
  obtain ⟨d, b, e1, e2⟩ := find_dict W k hR hI n
  refine ⟨d, b, ?_⟩
  rw [hasKey, get_b, sb e1, PDict.contains]
  cases hf : PDict.mapFind lt k t.elems with
  | none => show (Res.ok (t.size != t.size), _) = _; simp
  | some j =>
    have := e2 j hf
    have hne : (j != t.size) = true := by simp; omega
    show (Res.ok (j != t.size), _) = _
    rw [hne]; rfl

theorem refAt_ok (W : StrictWeak lt) (k : K) {t : BT (K × V)} (hR : RB t) (hI : Increasing (PDict.keyLt lt) t.elems) (n : Nat) :
    ∃ d, d ≤ 2 * Nat.log 2 (t.size + 1) + 1 ∧ refAt (Ans lt) k (t, n) = (PDict.refAt lt t.elems k, (t, n + d)) ∧
      ((PDict.refAt lt t.elems k = .throw "Error: Key is not found in the dictionary.") ∨
       ∃ j p, PDict.refAt lt t.elems k = .ok j ∧ t.elems[j]? = some p) := by
  obtain ⟨d, b, e1, e2⟩ := find_dict W k hR hI n
  refine ⟨d, b, ?_⟩
  rw [refAt, get_b, sb e1, PDict.refAt]
  cases hf : PDict.mapFind lt k t.elems with
  | none =>
    refine ⟨?_, Or.inl rfl⟩
    show (if t.size = t.size then _ else _ : Meth (BT (K × V) × Nat) Nat) _ = _
    rw [if_pos rfl]; rfl
  | some j =>
    have hj := e2 j hf
    obtain ⟨p, hp⟩ := get_some hj
    refine ⟨?_, Or.inr ⟨j, p, rfl, hp⟩⟩
    show (if j = t.size then _ else _ : Meth (BT (K × V) × Nat) Nat) _ = _
    rw [if_neg (by omega)]; rfl

theorem getVal_ok (W : StrictWeak lt) (k : K) {t : BT (K × V)} (hR : RB t) (hI : Increasing (PDict.keyLt lt) t.elems) (n : Nat) :
    ∃ d, d ≤ 2 * Nat.log 2 (t.size + 1) + 1 ∧ getVal (Ans lt) k (t, n) = (PDict.get lt t.elems k, (t, n + d)) ∧
      (PDict.get lt t.elems k = .throw "Error: Key is not found in the dictionary." ∨ ∃ v, PDict.get lt t.elems k = .ok v) := by
  obtain ⟨d, b, e, h⟩ := refAt_ok W k hR hI n
  refine ⟨d, b, ?_⟩
  rcases h with h | ⟨j, p, h, hp⟩
  · rw [h] at e
    rw [getVal, throw_b e]
    have : PDict.get lt t.elems k = .throw "Error: Key is not found in the dictionary." := by rw [PDict.get, h]; rfl
    exact ⟨by rw [this], Or.inl this⟩
  · rw [h] at e
    have hv : vget t.elems j = .ok p := by simp [vget, hp]
    have : PDict.get lt t.elems k = .ok p.2 := by
      rw [PDict.get, h]
      show (vget t.elems j >>= fun p => pure p.2) = _
      rw [hv]; rfl
    rw [getVal, sb e, get_b, lift_b _ hv, this]
    exact ⟨rfl, Or.inr ⟨_, rfl⟩⟩

theorem dict_sim (hB : B.Keeps) (W : StrictWeak lt) (op : MOp K V) {t : BT (K × V)} (hR : RB t) (hI : Increasing (PDict.keyLt lt) t.elems) (n : Nat) :
    Sim (PDict.keyLt lt) (dictCost t.size op) n (op.step lt t.elems) (dictStep (Ans lt) B op (t, n)) := by
  have hh := height_le hR
  cases op with
  | add k v =>
    rw [dictStep, get_b]
    by_cases hq : PDict.size t.elems ≥ INT_MAX
    · have hc : checkFull (PDict.size t.elems) INT_MAX = .throw "Error: The container has reached the maximum size." := if_pos hq
      have ho : MOp.step lt (.add k v) t.elems = (.throw "Error: The container has reached the maximum size.", t.elems) := by
        rw [MOp.step]
        refine throw_b ?_
        rw [PDict.add, get_b, lift_t _ hc]
      rw [lift_t _ hc, ho]
      exact ⟨rfl, rfl, hR, hI, le_refl _, Nat.le_add_right _ _⟩
    · have hc : checkFull (PDict.size t.elems) INT_MAX = .ok () := if_neg hq
      have ho : MOp.step lt (.add k v) t.elems = (.ok (.bool (Tree.insert (PDict.keyLt lt) (k, v) t.elems).2), (Tree.insert (PDict.keyLt lt) (k, v) t.elems).1) := by
        rw [MOp.step, sb (s' := (Tree.insert (PDict.keyLt lt) (k, v) t.elems).1) (b := (Tree.insert (PDict.keyLt lt) (k, v) t.elems).2)]
        · rfl
        · rw [PDict.add, get_b, lift_b _ hc]; rfl
      obtain ⟨t', d, b, e1, e2, r⟩ := insert_ok (key := Prod.fst) hB W (k, v) hR hI n
      rw [lift_b _ hc, sb (onTree_ok e1), ho]
      exact ⟨rfl, e2, r, by show Increasing (PDict.keyLt lt) t'.elems; rw [e2]; exact (Tree.insert_mem (byKey_weak W) (k, v) t.elems hI).2.2.1,
        by show n ≤ n + d; omega, by show n + d ≤ n + (2 * _ + 2); omega⟩
  | remove k =>
    obtain ⟨t', d, b, e1, e2, r, i⟩ := erase_ok (key := Prod.fst) hB W k hR hI n
    rw [dictStep, sb (onTree_ok e1)]
    rw [eraseK_fst] at e2
    refine ⟨?_, e2, r, i, by show n ≤ n + d; omega, by show n + d ≤ n + (4 * _); omega⟩
    rw [eraseK_fst]; rfl
  | assign k v =>
    obtain ⟨d, b, e, h⟩ := refAt_ok W k hR hI n
    rw [dictStep]
    rcases h with h | ⟨j, p, h, hp⟩
    · rw [h] at e
      have ho : MOp.step lt (.assign k v) t.elems = (.throw "Error: Key is not found in the dictionary.", t.elems) := by
        rw [MOp.step]
        refine throw_b ?_
        rw [PDict.assign, get_b, lift_t _ h]
      rw [throw_b e, ho]
      exact ⟨rfl, rfl, hR, hI, by show n ≤ n + d; omega, Nat.add_le_add_left b n⟩
    · rw [h] at e
      have hv : vget t.elems j = .ok p := by simp [vget, hp]
      have ho : MOp.step lt (.assign k v) t.elems = (.ok .unit, t.elems.set j (p.1, v)) := by
        rw [MOp.step, sb (s' := t.elems.set j (p.1, v)) (b := ())]
        · rfl
        · rw [PDict.assign, get_b, lift_b _ h, lift_b _ hv]; rfl
      rw [sb e, get_b, set_b, ho]
      obtain ⟨h', hR⟩ := hR
      refine ⟨rfl, setVal_elems v hp, ⟨h', setVal_bal v hR j⟩, ?_, by show n ≤ n + d; omega, Nat.add_le_add_left b n⟩
      show Increasing _ (setVal v t j).elems
      rw [setVal_elems v hp]
      exact set_increasing v hI hp
  | get k =>
    obtain ⟨d, b, e, h⟩ := getVal_ok W k hR hI n
    rw [dictStep]
    show Sim _ _ n ((Meth.get >>= fun d => _) _) _
    rw [get_b]
    rcases h with h | ⟨v, h⟩
    · rw [h] at e
      rw [lift_t _ h, throw_b e]
      exact ⟨rfl, rfl, hR, hI, by show n ≤ n + d; omega, Nat.add_le_add_left b n⟩
    · rw [h] at e
      rw [lift_b _ h, sb e]
      exact ⟨rfl, rfl, hR, hI, by show n ≤ n + d; omega, Nat.add_le_add_left b n⟩
  | getOr k v =>
    obtain ⟨d, b, e⟩ := hasKey_ok W k hR hI n
    rw [dictStep, sb e]
    show Sim _ _ n ((Meth.get >>= fun d => _) _) _
    rw [get_b]
    cases hc : PDict.contains lt t.elems k with
    | false =>
      have ho : PDict.getOr lt t.elems k v = .ok v := by rw [PDict.getOr, hc]; rfl
      rw [lift_b _ ho, if_neg (by simp)]
      exact ⟨rfl, rfl, hR, hI, by show n ≤ n + d; omega, by show n + d ≤ n + (4 * _ + 2); omega⟩
    | true =>
      obtain ⟨d', b', e', h⟩ := getVal_ok W k hR hI (n + d)
      have ho : PDict.getOr lt t.elems k v = PDict.get lt t.elems k := by rw [PDict.getOr, hc]; rfl
      rw [if_pos rfl]
      rcases h with h | ⟨w, h⟩
      · rw [h] at e' ho
        rw [lift_t _ ho, throw_b e']
        exact ⟨rfl, rfl, hR, hI, by show n ≤ n + d + d'; omega, by show n + d + d' ≤ n + (4 * _ + 2); omega⟩
      · rw [h] at e' ho
        rw [lift_b _ ho, sb e']
        exact ⟨rfl, rfl, hR, hI, by show n ≤ n + d + d'; omega, by show n + d + d' ≤ n + (4 * _ + 2); omega⟩
  | contains k =>
    obtain ⟨d, b, e⟩ := hasKey_ok W k hR hI n
    rw [dictStep, sb e]
    exact ⟨rfl, rfl, hR, hI, by show n ≤ n + d; omega, Nat.add_le_add_left b n⟩
  | pop =>
    rw [dictStep, get_b]
    by_cases hq : PDict.size t.elems = 0
    · have hc : checkEmpty (PDict.size t.elems) = .throw "Error: The container is empty." := if_pos hq
      have ho : MOp.step lt .pop t.elems = (.throw "Error: The container is empty.", t.elems) := by
        rw [MOp.step]
        refine throw_b ?_
        rw [PDict.pop, get_b, lift_t _ hc]
      rw [lift_t _ hc, ho]
      exact ⟨rfl, rfl, hR, hI, le_refl _, Nat.le_add_right _ _⟩
    · have hc : checkEmpty (PDict.size t.elems) = .ok () := if_neg hq
      have h0 : t.elems.length ≠ 0 := fun h0 => hq (by unfold PDict.size; rw [h0]; rfl)
      obtain ⟨x, hx⟩ := get_some (t := t) (j := 0) (by unfold size; omega)
      have hb : PSet.stdBegin t.elems = .ok x := by unfold PSet.stdBegin; rw [if_neg h0]; simp [vget, hx]
      have ho : MOp.step lt .pop t.elems = (.ok (.pair x), t.elems.drop 1) := by
        rw [MOp.step, sb (s' := t.elems.drop 1) (b := x)]
        · rfl
        · rw [PDict.pop, get_b, lift_b _ hc, lift_b _ hb]; rfl
      obtain ⟨p1, p2, p3⟩ := pop_sim (lt := PDict.keyLt lt) hB hI h0
      rw [lift_b _ hc, lift_b _ hb, ho]
      exact ⟨rfl, p1, p2, p3, le_refl _, Nat.le_add_right _ _⟩
  | size => exact ⟨rfl, rfl, hR, hI, le_refl _, le_refl _⟩
  | extend xs =>
    obtain ⟨t', d, e1, e2, r, b, -⟩ := insertRange_ok (key := Prod.fst) hB W xs hR hI n
    rw [dictStep, sb (onTree_ok (by rw [mb e1]; rfl))]
    exact ⟨rfl, e2, r, by show Increasing (PDict.keyLt lt) t'.elems; rw [e2]; exact (Tree.insertAll_spec (byKey_weak W) xs t.elems hI).1,
      by show n ≤ n + d; omega, Nat.add_le_add_left b n⟩
  | clear => exact ⟨rfl, rfl, rb_leaf, List.Pairwise.nil, le_refl _, le_refl _⟩

/-- The calls that a history may make, going by the sizes of the sorted lists. -/
def dictBudget (lt : K → K → Bool) : List (MOp K V) → List (K × V) → Nat
  | [], _ => 0
  | op :: ops, s => dictCost s.length op + dictBudget lt ops (op.step lt s).2

theorem dictRun_sim (hB : B.Keeps) (W : StrictWeak lt) : ∀ (ops : List (MOp K V)) {t : BT (K × V)}, RB t → Increasing (PDict.keyLt lt) t.elems → ∀ n,
    Sim (PDict.keyLt lt) (dictBudget lt ops t.elems) n (MOp.run lt ops t.elems) (dictRun (Ans lt) B ops (t, n))
  | [], t, hR, hI, n => ⟨rfl, rfl, hR, hI, le_refl _, le_refl _⟩
  | op :: ops, t, hR, hI, n => by
    have h := dict_sim hB W op hR hI n
    generalize hg : dictStep (Ans lt) B op (t, n) = got at h
    generalize ho : op.step lt t.elems = out at h
    obtain ⟨r, t', n'⟩ := got
    obtain ⟨r', L⟩ := out
    obtain ⟨h1, h2, h3, h4, h5, h6⟩ := h
    dsimp only at h1 h2 h3 h4 h5 h6
    subst h1
    have ih := dictRun_sim hB W ops h3 h4 n'
    rw [h2] at ih
    obtain ⟨i1, i2, i3, i4, i5, i6⟩ := ih
    have hz : dictCost t.size op = dictCost t.elems.length op := rfl
    rw [MOp.run, dictRun, dictBudget, hg, ho]
    cases r with
    | ok r => exact ⟨by dsimp only; rw [i1], i2, i3, i4, by dsimp only; omega, by dsimp only; omega⟩
    | throw m => exact ⟨by dsimp only; rw [i1], i2, i3, i4, by dsimp only; omega, by dsimp only; omega⟩
    | ub u => exact ⟨rfl, h2, h3, h4, h5, by dsimp only; omega⟩
    | fuel => exact ⟨rfl, h2, h3, h4, h5, by dsimp only; omega⟩

end BT
end Pyincpp
