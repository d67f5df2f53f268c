import Verif.Model.HashTable
import Mathlib.Data.Set.Card
import Mathlib.Data.List.Nodup
import Mathlib.Algebra.Order.BigOperators.Ring.Finset
import Mathlib.Algebra.Order.Chebyshev

/-! # Hash tables: the pairs held -/

namespace Pyincpp
namespace HTable

variable {ι κ ν : Type} {f : ι → κ} {I : HImpl κ ν} {eq : κ → κ → Res Bool} {hash : κ → BitVec 64}

theorem key_injective (h : ∀ a b, ∃ t, eq (f a) (f b) = .ok t ∧ (t = true ↔ a = b)) : Function.Injective f := by
  intro a b e
  obtain ⟨t, h1, h2⟩ := h a b
  obtain ⟨u, h3, h4⟩ := h a a
  rw [← e, h3] at h1
  exact h2.1 (Res.ok.inj h1 ▸ h4.2 rfl)

open Classical in
theorem locate_spec (h : ∀ a b, ∃ t, eq (f a) (f b) = .ok t ∧ (t = true ↔ a = b)) {looks : κ → Bool} {k : ι} (hk : looks (f k) = true) :
    ∀ l : List (κ × ν), (∀ p ∈ l, ∃ a, p.1 = f a) →
      ∃ c, locate looks eq (f k) l = .ok (l.findIdx? (fun p => decide (p.1 = f k)), c) ∧
        (l.findIdx? (fun p => decide (p.1 = f k)) = none → c = l.countP (fun p => looks p.1)) := by
  intro l
  induction l with
  | nil => intro _; exact ⟨0, rfl, fun _ => rfl⟩
  | cons p l ih =>
    intro hl
    obtain ⟨c, h1, h2⟩ := ih (fun q hq => hl q (by simp [hq]))
    obtain ⟨a, ha⟩ := hl p (by simp)
    obtain ⟨y, v⟩ := p
    dsimp only at ha
    subst ha
    rw [List.findIdx?_cons]
    by_cases hak : a = k
    · subst hak
      obtain ⟨t, h3, h4⟩ := h a a
      refine ⟨1, ?_, by simp⟩
      unfold locate
      rw [if_pos hk, h3, h4.2 rfl]
      simp [Res.ok_bind]
    · have hne : f a ≠ f k := fun e => hak (key_injective h e)
      obtain ⟨t, h3, h4⟩ := h k a
      have ht : t = false := by
        rw [← Bool.not_eq_true, h4]
        exact fun e => hak e.symm
      by_cases hs : looks (f a) = true
      · refine ⟨c + 1, ?_, ?_⟩
        · unfold locate
          rw [if_pos hs, h3, ht, h1]
          simp [Res.ok_bind, hne]
        · intro hn
          rw [List.countP_cons, h2 (by simpa [hne] using hn)]
          simp [hs]
      · refine ⟨c, ?_, ?_⟩
        · unfold locate
          rw [if_neg hs, h1]
          simp [Res.ok_bind, hne]
        · intro hn
          rw [List.countP_cons, h2 (by simpa [hne] using hn)]
          simp [hs]

open Classical in
theorem at_place {x : κ} : ∀ (l : List (κ × ν)) (i : ℕ), (l.map (·.1)).Nodup → l.findIdx? (fun p => decide (p.1 = x)) = some i →
    (∃ v, (x, v) ∈ l ∧ l[i]? = some (x, v)) ∧
    l.eraseIdx i = l.filter (fun p => decide (p.1 ≠ x)) ∧
    (∀ v, l.modify i (fun q => (q.1, v)) = l.map (fun p => if p.1 = x then (p.1, v) else p)) := by
  intro l
  induction l with
  | nil => intro i _ h; simp at h
  | cons p l ih =>
    intro i hn h
    rw [List.map_cons, List.nodup_cons] at hn
    rw [List.findIdx?_cons] at h
    by_cases hp : p.1 = x
    · rw [if_pos (by simpa using hp)] at h
      cases h
      have hnot : ∀ q ∈ l, q.1 ≠ x := fun q hq e => hn.1 (by rw [hp, ← e]; exact List.mem_map_of_mem hq)
      refine ⟨⟨p.2, by rw [← hp]; simp, by rw [← hp]; simp⟩, ?_, ?_⟩
      · rw [List.eraseIdx_cons_zero, List.filter_cons, if_neg (by simpa using hp)]
        exact (List.filter_eq_self.2 (fun q hq => by simpa using hnot q hq)).symm
      · intro v
        rw [List.modify_zero_cons, List.map_cons, if_pos hp]
        congr 1
        conv_lhs => rw [← List.map_id l]
        exact List.map_congr_left (fun q hq => by rw [if_neg (hnot q hq)]; rfl)
    · rw [if_neg (by simpa using hp)] at h
      obtain ⟨j, hj, rfl⟩ := Option.map_eq_some_iff.1 h
      obtain ⟨⟨v, h1, h2⟩, h3, h4⟩ := ih j hn.2 hj
      refine ⟨⟨v, by simp [h1], by simpa using h2⟩, ?_, ?_⟩
      · rw [List.eraseIdx_cons_succ, h3, List.filter_cons, if_pos (by simpa using hp)]
      · intro w
        rw [List.modify_succ_cons, h4, List.map_cons, if_neg hp]

/-- The pairs of the table are those of the map, each once. -/
def Holds (f : ι → κ) (m : ι → Option ν) (l : List (κ × ν)) : Prop :=
  (l.map (·.1)).Nodup ∧ ∀ p, p ∈ l ↔ ∃ k v, m k = some v ∧ p = (f k, v)

theorem Holds.perm {m : ι → Option ν} {l l' : List (κ × ν)} (h : Holds f m l) (e : l'.Perm l) : Holds f m l' :=
  ⟨(e.map _).nodup_iff.2 h.1, fun p => e.mem_iff.trans (h.2 p)⟩

theorem Holds.value (hf : Function.Injective f) {m : ι → Option ν} {l : List (κ × ν)} (h : Holds f m l) (k : ι) (v : ν) :
    (f k, v) ∈ l ↔ m k = some v := by
  rw [h.2]
  constructor
  · rintro ⟨k', v', h1, h2⟩
    rw [hf (Prod.mk.inj h2).1, (Prod.mk.inj h2).2]
    exact h1
  · exact fun h => ⟨k, v, h, rfl⟩

theorem Holds.absent (hf : Function.Injective f) {m : ι → Option ν} {l : List (κ × ν)} (h : Holds f m l) (k : ι) :
    f k ∉ l.map (·.1) ↔ m k = none := by
  rw [Option.eq_none_iff_forall_ne_some]
  constructor
  · intro hn v e
    exact hn (List.mem_map.2 ⟨_, (h.value hf k v).2 e, rfl⟩)
  · intro hn hm
    obtain ⟨⟨y, v⟩, h1, h2⟩ := List.mem_map.1 hm
    dsimp only at h2
    subst h2
    exact hn v ((h.value hf k v).1 h1)

theorem Holds.cons (hf : Function.Injective f) [DecidableEq ι] {m : ι → Option ν} {l : List (κ × ν)} (h : Holds f m l) {k : ι} (hk : m k = none) (v : ν) :
    Holds f (Function.update m k (some v)) ((f k, v) :: l) := by
  refine ⟨?_, fun p => ?_⟩
  · rw [List.map_cons, List.nodup_cons]
    exact ⟨(h.absent hf k).2 hk, h.1⟩
  · rw [List.mem_cons, h.2]
    constructor
    · rintro (rfl | ⟨k', v', h1, rfl⟩)
      · exact ⟨k, v, by simp, rfl⟩
      · refine ⟨k', v', ?_, rfl⟩
        rw [Function.update_of_ne (fun e => by rw [e, hk] at h1; cases h1)]
        exact h1
    · rintro ⟨k', v', h1, rfl⟩
      by_cases e : k' = k
      · subst e
        rw [Function.update_self] at h1
        left
        rw [Option.some.inj h1]
      · rw [Function.update_of_ne e] at h1
        exact .inr ⟨k', v', h1, rfl⟩

theorem Holds.size (hf : Function.Injective f) {m : ι → Option ν} {l : List (κ × ν)} (h : Holds f m l) : {k | m k ≠ none}.ncard = l.length := by
  classical
  rw [← Set.ncard_image_of_injective _ hf]
  have : f '' {k | m k ≠ none} = ((l.map (·.1)).toFinset : Set κ) := by
    ext x
    rw [Finset.mem_coe, List.mem_toFinset]
    constructor
    · rintro ⟨k, hk, rfl⟩
      by_contra hc
      exact hk ((h.absent hf k).1 hc)
    · intro hx
      obtain ⟨p, hp, rfl⟩ := List.mem_map.1 hx
      obtain ⟨k, v, hk, e⟩ := (h.2 p).1 hp
      exact ⟨k, by simp [hk], by rw [e]⟩
  rw [this, Set.ncard_coe_finset, List.toFinset_card_of_nodup h.1, List.length_map]

theorem step_spec (h : ∀ a b, ∃ t, eq (f a) (f b) = .ok t ∧ (t = true ↔ a = b)) {m : ι → Option ν} {t : HTable κ ν} (ht : Holds f m t.items)
    (o : HOp ι ν) : ∃ t', step I eq hash t (o.map f) = .ok (o.gives m, t') ∧ Holds f (o.after m) t'.items := by
  classical
  have hf := key_injective h
  have find : ∀ k : ι, ∃ c, search I eq hash t (f k) = .ok (t.items.findIdx? (fun p => decide (p.1 = f k)), c) := fun k => by
    obtain ⟨c, h1, -⟩ := locate_spec (ν := ν) h (looks := fun y => I.looks t.buckets (hash (f k)) (hash y)) (k := k) (I.looks_same _ _) t.items
      (fun p hp => by obtain ⟨a, v, -, e⟩ := (ht.2 p).1 hp; exact ⟨a, by rw [e]⟩)
    exact ⟨c, h1⟩
  have gone : ∀ k : ι, t.items.findIdx? (fun p => decide (p.1 = f k)) = none → m k = none := fun k hk => by
    rw [List.findIdx?_eq_none_iff] at hk
    rw [← ht.absent hf]
    intro hm
    obtain ⟨p, hp, e⟩ := List.mem_map.1 hm
    simpa [e] using hk p hp
  have pushed : ∀ (k : ι) (v : ν) (c : ℕ), m k = none →
      Holds f (Function.update m k (some v)) (push I { t with calls := t.calls + c } (f k) v).items :=
    fun k v c hk => (ht.cons hf hk v).perm (I.order_perm _ _)
  cases o with
  | insert k v =>
    obtain ⟨c, hc⟩ := find k
    cases hi : t.items.findIdx? (fun p => decide (p.1 = f k)) with
    | none =>
      refine ⟨push I { t with calls := t.calls + c } (f k) v, ?_, ?_⟩
      · simp only [HOp.map, step, hc, hi, Res.ok_bind, HOp.gives, gone k hi, Option.isNone_none]
      · simp only [HOp.after, if_pos (gone k hi)]
        exact pushed k v c (gone k hi)
    | some i =>
      obtain ⟨⟨w, h1, h2⟩, -, -⟩ := at_place t.items i ht.1 hi
      have hw := (ht.value hf k w).1 h1
      refine ⟨{ t with calls := t.calls + c }, ?_, ?_⟩
      · simp only [HOp.map, step, hc, hi, Res.ok_bind, HOp.gives, hw, Option.isNone_some]
      · simp only [HOp.after, hw, reduceCtorEq, if_false]
        exact ht
  | assign k v =>
    obtain ⟨c, hc⟩ := find k
    cases hi : t.items.findIdx? (fun p => decide (p.1 = f k)) with
    | none =>
      refine ⟨push I { t with calls := t.calls + c } (f k) v, ?_, ?_⟩
      · simp only [HOp.map, step, hc, hi, Res.ok_bind, HOp.gives]
      · exact pushed k v c (gone k hi)
    | some i =>
      obtain ⟨⟨w, h1, h2⟩, -, h4⟩ := at_place t.items i ht.1 hi
      have hw := (ht.value hf k w).1 h1
      refine ⟨{ t with calls := t.calls + c, items := t.items.modify i (fun q => (q.1, v)) }, ?_, ?_⟩
      · simp only [HOp.map, step, hc, hi, Res.ok_bind, HOp.gives]
      · simp only [HOp.after, h4]
        refine ⟨?_, fun p => ?_⟩
        · rw [List.map_map]
          have : ((fun p : κ × ν => p.1) ∘ fun p => if p.1 = f k then (p.1, v) else p) = fun p => p.1 := by
            funext p
            dsimp only [Function.comp]
            split <;> rfl
          rw [this]
          exact ht.1
        · rw [List.mem_map]
          constructor
          · rintro ⟨q, hq, rfl⟩
            obtain ⟨a, b, hab, rfl⟩ := (ht.2 q).1 hq
            by_cases e : a = k
            · subst e
              exact ⟨a, v, by simp, by simp⟩
            · refine ⟨a, b, by rw [Function.update_of_ne e]; exact hab, ?_⟩
              rw [if_neg (fun e' => e (hf e'))]
          · rintro ⟨a, b, hab, rfl⟩
            by_cases e : a = k
            · subst e
              rw [Function.update_self] at hab
              refine ⟨(f a, w), h1, ?_⟩
              rw [if_pos rfl, Option.some.inj hab]
            · rw [Function.update_of_ne e] at hab
              exact ⟨(f a, b), (ht.value hf a b).2 hab, by rw [if_neg (fun e' => e (hf e'))]⟩
  | erase k =>
    obtain ⟨c, hc⟩ := find k
    cases hi : t.items.findIdx? (fun p => decide (p.1 = f k)) with
    | none =>
      refine ⟨{ t with calls := t.calls + c }, ?_, ?_⟩
      · simp only [HOp.map, step, hc, hi, Res.ok_bind, HOp.gives, gone k hi, Option.isSome_none]
      · simp only [HOp.after]
        rw [Function.update_eq_self_iff.2 (gone k hi).symm]
        exact ht
    | some i =>
      obtain ⟨⟨w, h1, h2⟩, h3, -⟩ := at_place t.items i ht.1 hi
      have hw := (ht.value hf k w).1 h1
      refine ⟨{ t with calls := t.calls + c, items := t.items.eraseIdx i }, ?_, ?_⟩
      · simp only [HOp.map, step, hc, hi, Res.ok_bind, HOp.gives, hw, Option.isSome_some]
      · simp only [HOp.after, h3]
        refine ⟨ht.1.sublist (List.filter_sublist.map _), fun p => ?_⟩
        rw [List.mem_filter, ht.2, decide_eq_true_iff]
        constructor
        · rintro ⟨⟨a, b, hab, rfl⟩, hne⟩
          refine ⟨a, b, ?_, rfl⟩
          rw [Function.update_of_ne (fun e => hne (by rw [e]))]
          exact hab
        · rintro ⟨a, b, hab, rfl⟩
          by_cases e : a = k
          · subst e
            rw [Function.update_self] at hab
            cases hab
          · rw [Function.update_of_ne e] at hab
            exact ⟨⟨a, b, hab, rfl⟩, fun e' => e (hf e')⟩
  | find k =>
    obtain ⟨c, hc⟩ := find k
    cases hi : t.items.findIdx? (fun p => decide (p.1 = f k)) with
    | none =>
      refine ⟨{ t with calls := t.calls + c }, ?_, ht⟩
      simp only [HOp.map, step, hc, hi, Res.ok_bind, HOp.gives, gone k hi]
    | some i =>
      obtain ⟨⟨w, h1, h2⟩, -, -⟩ := at_place t.items i ht.1 hi
      have hw := (ht.value hf k w).1 h1
      refine ⟨{ t with calls := t.calls + c }, ?_, ht⟩
      simp only [HOp.map, step, hc, hi, Res.ok_bind, HOp.gives, hw, h2, Option.map_some]
  | size => exact ⟨t, by simp only [HOp.map, step, HOp.gives, ht.size hf], ht⟩
  | clear => exact ⟨{ t with items := [] }, by simp only [HOp.map, step, HOp.gives], by simp [Holds, HOp.after]⟩

theorem run_spec (h : ∀ a b, ∃ t, eq (f a) (f b) = .ok t ∧ (t = true ↔ a = b)) : ∀ (ops : List (HOp ι ν)) (m : ι → Option ν) (t : HTable κ ν),
    Holds f m t.items → ∃ t', run I eq hash t (ops.map (HOp.map f)) = .ok ((HOp.history m ops).1, t') ∧
      Holds f (HOp.history m ops).2 t'.items := by
  intro ops
  induction ops with
  | nil => intro m t ht; exact ⟨t, rfl, ht⟩
  | cons o ops ih =>
    intro m t ht
    obtain ⟨t', h1, h2⟩ := step_spec (I := I) (hash := hash) h ht o
    obtain ⟨t'', h3, h4⟩ := ih _ t' h2
    refine ⟨t'', ?_, h4⟩
    rw [List.map_cons, run, h1, Res.ok_bind, h3]
    rfl

/-! ## Calls of `==` -/

/-- Number of pairs of the list with this hash. -/
def same (hash : κ → BitVec 64) (c : BitVec 64) (l : List (κ × ν)) : ℕ := l.countP (fun p => decide (hash p.1 = c))

theorem calls_insert (h : ∀ a b, ∃ t, eq (f a) (f b) = .ok t ∧ (t = true ↔ a = b)) {m : ι → Option ν} {t : HTable κ ν} (ht : Holds f m t.items)
    (k : ι) (v : ν) (hk : m k = none) : ∃ t', step I eq hash t (.insert (f k) v) = .ok (.bool true, t') ∧
      t'.items.Perm ((f k, v) :: t.items) ∧ t.calls + same hash (hash (f k)) t.items ≤ t'.calls := by
  classical
  obtain ⟨c, h1, h2⟩ := locate_spec (ν := ν) h (looks := fun y => I.looks t.buckets (hash (f k)) (hash y)) (k := k) (I.looks_same _ _) t.items
      (fun p hp => by obtain ⟨a, v, -, e⟩ := (ht.2 p).1 hp; exact ⟨a, by rw [e]⟩)
  have hnone : t.items.findIdx? (fun p => decide (p.1 = f k)) = none := by
    rw [List.findIdx?_eq_none_iff]
    intro p hp
    rw [decide_eq_false_iff_not]
    exact fun e => (ht.absent (key_injective h) k).2 hk (List.mem_map.2 ⟨p, hp, e⟩)
  refine ⟨push I { t with calls := t.calls + c } (f k) v, ?_, I.order_perm _ _, ?_⟩
  · have h3 : search I eq hash t (f k) = .ok (none, c) := by rw [search, h1, hnone]
    simp only [step, h3, Res.ok_bind]
  · show t.calls + _ ≤ t.calls + c
    rw [h2 hnone]
    refine Nat.add_le_add_left (List.countP_mono_left (fun p _ hp => ?_)) _
    rw [of_decide_eq_true hp]
    exact I.looks_same _ _

theorem calls_sum (T : Finset (BitVec 64)) (l : List (κ × ν)) (hT : ∀ p ∈ l, hash p.1 ∈ T) : ∑ c ∈ T, same hash c l = l.length := by
  induction l with
  | nil => simp [same]
  | cons p l ih =>
    have : ∀ c, same hash c (p :: l) = same hash c l + if hash p.1 = c then 1 else 0 := fun c => by
      simp [same, List.countP_cons]
    simp only [this]
    rw [Finset.sum_add_distrib, ih (fun q hq => hT q (by simp [hq])), Finset.sum_ite_eq, if_pos (hT p (by simp)), List.length_cons]

theorem squares_cons (T : Finset (BitVec 64)) (p : κ × ν) (l : List (κ × ν)) (hp : hash p.1 ∈ T) :
    ∑ c ∈ T, same hash c (p :: l) ^ 2 = ∑ c ∈ T, same hash c l ^ 2 + (2 * same hash (hash p.1) l + 1) := by
  have : ∀ c, same hash c (p :: l) ^ 2 = same hash c l ^ 2 + if hash p.1 = c then 2 * same hash (hash p.1) l + 1 else 0 := fun c => by
    simp only [same, List.countP_cons, decide_eq_true_eq]
    split
    · rename_i e; subst e; ring
    · rfl
  simp only [this]
  rw [Finset.sum_add_distrib, Finset.sum_ite_eq, if_pos hp]

theorem same_perm (c : BitVec 64) {l l' : List (κ × ν)} (e : l.Perm l') : same hash c l = same hash c l' := e.countP_eq _

theorem calls_spec (h : ∀ a b, ∃ t, eq (f a) (f b) = .ok t ∧ (t = true ↔ a = b)) (T : Finset (BitVec 64)) (hT : ∀ k, hash (f k) ∈ T) (v : ν) :
    ∀ (ks : List ι) (m : ι → Option ν) (t : HTable κ ν), ks.Nodup → (∀ k ∈ ks, m k = none) → Holds f m t.items →
      ∑ c ∈ T, same hash c t.items ^ 2 ≤ 2 * t.calls + t.items.length →
      ∃ outs t', run I eq hash t (ks.map (fun k => .insert (f k) v)) = .ok (outs, t') ∧ t'.items.length = t.items.length + ks.length ∧
        (∀ p ∈ t'.items, hash p.1 ∈ T) ∧ ∑ c ∈ T, same hash c t'.items ^ 2 ≤ 2 * t'.calls + t'.items.length := by
  classical
  intro ks
  induction ks with
  | nil =>
    intro m t _ _ ht hs
    refine ⟨[], t, rfl, rfl, fun p hp => ?_, hs⟩
    obtain ⟨k, v, -, rfl⟩ := (ht.2 p).1 hp
    exact hT k
  | cons k ks ih =>
    intro m t hn hm ht hs
    rw [List.nodup_cons] at hn
    obtain ⟨t', h1, h2, h3⟩ := calls_insert (I := I) (hash := hash) h ht k v (hm k (by simp))
    have hl := h2.length_eq
    rw [List.length_cons] at hl
    obtain ⟨outs, t'', h4, h5, h6, h7⟩ := ih (Function.update m k (some v)) t' hn.2
      (fun a ha => by
        rw [Function.update_of_ne (show a ≠ k from fun e => hn.1 (e ▸ ha))]
        exact hm a (by simp [ha]))
      ((ht.cons (key_injective h) (hm k (by simp)) v).perm h2)
      (by
        simp only [same_perm _ h2]
        rw [squares_cons T (f k, v) t.items (hT k), hl]
        dsimp only
        omega)
    refine ⟨.bool true :: outs, t'', ?_, ?_, h6, h7⟩
    · rw [List.map_cons, run, h1, Res.ok_bind, h4, Res.ok_bind]
    · rw [h5, hl, List.length_cons]; omega

theorem calls_bound (h : ∀ a b, ∃ t, eq (f a) (f b) = .ok t ∧ (t = true ↔ a = b)) (T : Finset (BitVec 64)) (hT : ∀ k, hash (f k) ∈ T) (v : ν)
    (n : ℕ) (ks : List ι) (hk : ks.Nodup) : ∃ outs t', run I eq hash (empty n) (ks.map (fun k => .insert (f k) v)) = .ok (outs, t') ∧
      ks.length ^ 2 ≤ T.card * (2 * t'.calls + ks.length) := by
  obtain ⟨outs, t', h1, h2, h3, h4⟩ := calls_spec (I := I) h T hT v ks (fun _ => none) (empty n) hk (fun _ _ => rfl)
    (by simp [Holds, empty]) (by simp [same, empty])
  refine ⟨outs, t', h1, ?_⟩
  have hlen : t'.items.length = ks.length := by rw [h2]; simp [empty]
  have hq := sq_sum_le_card_mul_sum_sq (s := T) (f := fun c => same hash c t'.items)
  rw [calls_sum T t'.items h3, hlen] at hq
  rw [hlen] at h4
  exact hq.trans (Nat.mul_le_mul_left _ h4)

end HTable
end Pyincpp
