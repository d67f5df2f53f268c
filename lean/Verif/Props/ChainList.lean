import Verif.Props.Chain
import Verif.Props.List

/-! # C111 for `List`: what a chain of calls gives -/

namespace Pyincpp

variable {α : Type}

/-- Two lists with the same elements, both sorted, with the same order among equivalent elements, are the same. -/
theorem stable_unique {lt : α → α → Bool} (h : StrictWeak lt) : ∀ r r' : List α, r.Perm r' →
    r.Pairwise (fun a b => lt b a = false) → r'.Pairwise (fun a b => lt b a = false) →
    (∀ x, r.filter (equivBy lt x) = r'.filter (equivBy lt x)) → r = r' := by
  intro r
  induction r with
  | nil => intro r' hp _ _ _; exact (List.nil_perm.1 hp).symm
  | cons a t ih =>
    intro r' hp h1 h2 h3
    cases r' with
    | nil => exact absurd hp.length_eq (by simp)
    | cons b t' =>
      rw [List.pairwise_cons] at h1 h2
      have hab : lt a b = false := by
        rcases List.mem_cons.1 (hp.subset (List.mem_cons_self (a := a) (l := t))) with rfl | hm
        · exact h.irrefl _
        · exact h2.1 a hm
      have hba : lt b a = false := by
        rcases List.mem_cons.1 (hp.symm.subset (List.mem_cons_self (a := b) (l := t'))) with rfl | hm
        · exact h.irrefl _
        · exact h1.1 b hm
      have e := h3 a
      rw [List.filter_cons_of_pos (by simp [equivBy, h.irrefl]), List.filter_cons_of_pos (by simp [equivBy, hab, hba])] at e
      obtain rfl := (List.cons.inj e).1
      congr 1
      refine ih t' ((List.perm_cons a).1 hp) h1.2 h2.2 (fun x => ?_)
      have := h3 x
      by_cases hx : equivBy lt x a = true
      · rw [List.filter_cons_of_pos hx, List.filter_cons_of_pos hx] at this
        exact (List.cons.inj this).2
      · rwa [List.filter_cons_of_neg hx, List.filter_cons_of_neg hx] at this

/-- C38: the result of `sort` is the only list of the same elements that is sorted and stable. -/
theorem C38_list_sort_unique (l r : List α) (lt : α → α → Bool) (h : StrictWeak lt) :
    Lst.sort lt l = (.ok (), r) ↔ r.Perm l ∧ r.Pairwise (fun a b => lt b a = false) ∧ ∀ x, r.filter (equivBy lt x) = l.filter (equivBy lt x) := by
  obtain ⟨r', e, h1, h2, h3⟩ := C38_list_sort l lt h
  rw [e]
  constructor
  · intro e'
    obtain rfl := (Prod.mk.inj e').2
    exact ⟨h1, h2, h3⟩
  · rintro ⟨g1, g2, g3⟩
    rw [stable_unique h r' r (h1.trans g1.symm) h2 g2 (fun x => (h3 x).trans (g3 x).symm)]

/-- A pair sorted by its first component keeps its order. -/
example : (⟨1, 5⟩ : Int × Int) ≠ ⟨1, 3⟩ ∧ StrictWeak (fun a b : Int × Int => decide (a.1 < b.1)) :=
  ⟨by decide, ⟨by simp, by simp; intros; omega, by simp; intros; omega⟩⟩

theorem IsSlice.unique {l r r' : List α} {a b c : Int} (h : IsSlice l a b c r) (h' : IsSlice l a b c r') : r = r' :=
  List.ext_getElem? (fun k => by rw [(h k).2, (h' k).2])

/-- What a member of `List` should make of `l`, and for which arguments. -/
def LCall.Makes [DecidableEq α] (l r : List α) : LCall α → Prop
  | .append e | .plusElem e => l.length < maxLen ∧ r = l ++ [e]
  | .extendList m | .plusList m => l.length + m.length + 1 < maxLen ∧ r = l ++ m
  | .removeFirst e | .minus e => r = l.erase e
  | .mulAssign n | .mul n => 0 ≤ n ∧ l.length * n < INT_MAX ∧ r = (List.replicate n.toNat l).flatten
  | .removeAll e | .divide e => r = l.filter (fun x => decide (x ≠ e))
  | .rotR n => IsInt n ∧ n ≠ INT_MIN ∧ r = rotated l (-n)
  | .rotL n => IsInt n ∧ r = rotated l n
  | .reverse => r = l.reverse
  | .uniquify => r.Nodup ∧ (∀ x, x ∈ r ↔ x ∈ l) ∧ r.Pairwise (fun a b => l.idxOf a < l.idxOf b)
  | .sort lt => StrictWeak lt ∧ r.Perm l ∧ r.Pairwise (fun a b => lt b a = false) ∧
      ∀ x, r.filter (equivBy lt x) = l.filter (equivBy lt x)
  | .erase a b => 0 ≤ a ∧ a ≤ b ∧ b ≤ l.length ∧ r = l.take a.toNat ++ l.drop b.toNat
  | .filter p => r = l.filter p
  | .slice a b c => c ≠ 0 ∧ IsInt c ∧ c ≤ INT_MAX - l.length ∧ -(l.length : Int) ≤ a ∧ a < l.length ∧ -(l.length : Int) - 1 ≤ b ∧
      b ≤ l.length ∧ IsSlice l (if a < 0 then a + l.length else a) (if b < 0 then b + l.length else b) c r

/-- What a chain of them should make. -/
inductive LCall.Chained [DecidableEq α] : List α → List (LCall α) → List α → Prop
  | nil (l : List α) : Chained l [] l
  | cons {l l' r : List α} {k : LCall α} {ks : List (LCall α)} (hl : l.length < maxLen) (h : k.Makes l l') (t : Chained l' ks r) :
      Chained l (k :: ks) r

/-- Two duplicate-free lists with the same elements in the same order are the same. -/
theorem order_unique [DecidableEq α] (f : α → ℕ) : ∀ r r' : List α, (∀ x, x ∈ r ↔ x ∈ r') → r.Pairwise (fun a b => f a < f b) →
    r'.Pairwise (fun a b => f a < f b) → r = r' := by
  intro r
  induction r with
  | nil =>
    intro r' h _ _
    cases r' with
    | nil => rfl
    | cons b t => exact absurd ((h b).2 List.mem_cons_self) (by simp)
  | cons a t ih =>
    intro r' h h1 h2
    cases r' with
    | nil => exact absurd ((h a).1 List.mem_cons_self) (by simp)
    | cons b t' =>
      rw [List.pairwise_cons] at h1 h2
      have hab : a = b := by
        by_contra hne
        have m1 : a ∈ t' := (List.mem_cons.1 ((h a).1 List.mem_cons_self)).resolve_left hne
        have m2 : b ∈ t := (List.mem_cons.1 ((h b).2 List.mem_cons_self)).resolve_left (Ne.symm hne)
        have := h1.1 b m2
        have := h2.1 a m1
        omega
      subst hab
      congr 1
      refine ih t' (fun x => ?_) h1.2 h2.2
      have := h x
      rw [List.mem_cons, List.mem_cons] at this
      by_cases hx : x = a
      · subst hx
        exact ⟨fun hm => absurd (h1.1 x hm) (Nat.lt_irrefl _), fun hm => absurd (h2.1 x hm) (Nat.lt_irrefl _)⟩
      · simpa [hx] using this

/-- One call. -/
theorem LCall.makes_value [DecidableEq α] [Inhabited α] {l r : List α} (hl : l.length < maxLen) {k : LCall α} (h : k.Makes l r) :
    Returns (fun n => Chain.value l [k.call .lenient n]) r := by
  have self : ∀ {m : Meth (List α) Unit}, m l = (.ok (), r) → Chain.value l [.self m] = .ok r := by
    intro m e
    simp [Chain.value, e]
  have fresh : ∀ {f : List α → Res (List α)}, f l = .ok r → Chain.value l [.fresh f] = .ok r := by
    intro f e
    simp [Chain.value, e]
  have copied : ∀ {m : Meth (List α) Unit}, m l = (.ok (), r) → Lst.onCopy m l = .ok r := by
    intro m e
    simp [Lst.onCopy, e]
  have hfil : ∀ e : α, l.filter (fun x => !(x == e)) = l.filter (fun x => decide (x ≠ e)) := by
    intro e
    apply List.filter_congr; intro x _; by_cases h : x = e <;> simp [h]
  cases k with
  | append e => obtain ⟨h1, rfl⟩ := h; exact ⟨0, fun _ _ => self (Lst.append_ok h1)⟩
  | extendList m =>
    obtain ⟨h1, rfl⟩ := h
    unfold maxLen at h1
    exact ⟨0, fun _ _ => self (Lst.extendList_ok (by omega) (by unfold maxLen; omega) (by omega))⟩
  | removeFirst e => obtain rfl := h; exact ⟨0, fun _ _ => self Lst.removeFirst_run⟩
  | mulAssign n => obtain ⟨h1, h2, rfl⟩ := h; exact ⟨0, fun _ _ => self ((C34_list_repeat_partial l (by omega) n).1 h1 h2).2⟩
  | removeAll e => obtain rfl := h; exact ⟨0, fun _ _ => self (by rw [Lst.removeAll_val, hfil])⟩
  | rotR n => obtain ⟨h1, h2, rfl⟩ := h; exact ⟨0, fun _ _ => self (Lst.rotR_run (by omega) h1 (.inl h2))⟩
  | rotL n => obtain ⟨h1, rfl⟩ := h; exact ⟨0, fun _ _ => self (Lst.rotL_run (by omega) h1)⟩
  | reverse => obtain rfl := h; exact ⟨0, fun _ _ => self (by simp [Lst.reverse])⟩
  | uniquify =>
    obtain ⟨-, h2, h3⟩ := h
    obtain ⟨r', e, -, g2, g3⟩ := C37_list_uniquify l
    obtain rfl := order_unique (fun x => l.idxOf x) r' r (fun x => (g2 x).trans (h2 x).symm) g3 h3
    exact ⟨0, fun _ _ => self e⟩
  | sort lt => obtain ⟨h0, h1⟩ := h; exact ⟨0, fun _ _ => self ((C38_list_sort_unique l r lt h0).2 h1)⟩
  | erase a b => obtain ⟨h1, h2, h3, rfl⟩ := h; exact ⟨0, fun _ _ => self (Lst.erase_ok hl h1 h2 h3)⟩
  | filter p => obtain rfl := h; exact ⟨0, fun _ _ => self Lst.filter_lenient⟩
  | slice a b c =>
    obtain ⟨h1, h2, h3, h4, h5, h6, h7, h8⟩ := h
    obtain ⟨r', g, N, hN⟩ := C28_list_slice_small_partial l hl a b c h1 h2 h3 h4 h5 h6 h7
    obtain rfl := g.unique h8
    exact ⟨N, fun n hn => fresh (hN n hn)⟩
  | plusElem e => obtain ⟨h1, rfl⟩ := h; exact ⟨0, fun _ _ => fresh (copied (Lst.append_ok h1))⟩
  | plusList m =>
    obtain ⟨h1, rfl⟩ := h
    unfold maxLen at h1
    exact ⟨0, fun _ _ => fresh (copied (Lst.extendList_ok (by omega) (by unfold maxLen; omega) (by omega)))⟩
  | minus e => obtain rfl := h; exact ⟨0, fun _ _ => fresh (copied Lst.removeFirst_run)⟩
  | mul n => obtain ⟨h1, h2, rfl⟩ := h; exact ⟨0, fun _ _ => fresh ((C34_list_repeat_partial l (by omega) n).1 h1 h2).1⟩
  | divide e => obtain rfl := h; exact ⟨0, fun _ _ => fresh (copied (by rw [Lst.removeAll_val, hfil]))⟩

theorem Chain.value_cons (v : α) (k : Call α) (ks : List (Call α)) {w : α} (h : Chain.value v [k] = .ok w) :
    Chain.value v (k :: ks) = Chain.value w ks := by
  cases k with
  | self m =>
    simp only [Chain.value] at h ⊢
    rcases e : m v with ⟨o, v'⟩
    rw [e] at h
    cases o with
    | ok => simp only at h ⊢; obtain rfl := Res.ok.inj h; rfl
    | throw => cases h
    | ub => cases h
    | fuel => cases h
  | fresh f =>
    simp only [Chain.value] at h ⊢
    cases e : f v with
    | ok => rw [e] at h; simp only at h ⊢; obtain rfl := Res.ok.inj h; rfl
    | throw => rw [e] at h; cases h
    | ub => rw [e] at h; cases h
    | fuel => rw [e] at h; cases h

/-- C111 for `List`: the value of a chain of calls, in the order in which they are written, each with arguments its own property
speaks of. Missing: other arguments, for which see C28, C29, C32, C34 and C41. -/
theorem C111_list_value_partial [DecidableEq α] [Inhabited α] {l r : List α} {ks : List (LCall α)} (h : LCall.Chained l ks r) :
    Returns (fun n => Chain.value l (ks.map (LCall.call .lenient n))) r := by
  induction h with
  | nil l => exact ⟨0, fun _ _ => rfl⟩
  | @cons l l' r k ks hl h t ih =>
    obtain ⟨N, hN⟩ := LCall.makes_value hl h
    obtain ⟨N', hN'⟩ := ih
    refine ⟨max N N', fun n hn => ?_⟩
    have h1 := hN n (Nat.le_trans (Nat.le_max_left ..) hn)
    have h2 := hN' n (Nat.le_trans (Nat.le_max_right ..) hn)
    simp only [List.map_cons] at h1 h2 ⊢
    rw [Chain.value_cons _ _ _ h1, h2]

/-- `((List{1, 2, 3}.reverse() <<= 1) - 2) + 7` is `[1, 3, 7]`. -/
example : LCall.Chained ([1, 2, 3] : List Int) [.reverse, .rotL 1, .minus 2, .plusElem 7] [1, 3, 7] :=
  .cons (by simp [maxLen]) (l' := [3, 2, 1]) (by simp [LCall.Makes])
    (.cons (by simp [maxLen]) (l' := [2, 1, 3]) ⟨by decide, by decide +kernel⟩
      (.cons (by simp [maxLen]) (l' := [1, 3]) (by simp [LCall.Makes])
        (.cons (by simp [maxLen]) (l' := [1, 3, 7]) (by simp [LCall.Makes, maxLen]) (.nil _))))

end Pyincpp
