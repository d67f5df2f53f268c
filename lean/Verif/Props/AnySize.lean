import Verif.Props.Set
import Verif.Props.Dict

/-! # Sets and dictionaries of any size (C44, C45, C46)

The checks of `add`, `pop`, `min` and `max` and the comparison of the sizes in `<` look at `size()`, which is the number of elements cut to 32 bits. The theorems here
have no bound on the number of elements. -/

namespace Pyincpp

open Lst

/-- `n` as `int size()` reports it: the number of 32 bits that differs from `n` by a multiple of `2^32`. -/
def shown (n : ℕ) : ℤ := Int.bmod n 4294967296

theorem shown_eq_wrap (n : ℕ) : shown n = wrap32 n := by
  unfold shown wrap32
  rw [Int.bmod_def]
  split <;> omega

theorem shown_eq_zero (n : ℕ) : shown n = 0 ↔ 4294967296 ∣ n := by
  rw [shown_eq_wrap]; unfold wrap32; omega

theorem shown_eq_max (n : ℕ) : shown n = INT_MAX ↔ n % 4294967296 = maxLen := by
  rw [shown_eq_wrap]; unfold wrap32 INT_MAX maxLen; omega

theorem shown_small {n : ℕ} (h : n ≤ maxLen) : shown n = n := by
  rw [shown_eq_wrap]; unfold wrap32; unfold maxLen at h; omega

section set
variable {α : Type} [LinearOrder α]

/-- What an operation does to a set of any size: `add` takes the set for full if the size modulo `2^32` is `INT_MAX`, the others take it for empty if the
size is a multiple of `2^32`. -/
def SOp.code (s : Finset α) : SOp α → Except String (SRet α × Finset α)
  | .add e => if s.card % 4294967296 = maxLen then .error msgFull else .ok (.bool (decide (e ∉ s)), insert e s)
  | .pop => if h : s.Nonempty ∧ ¬ 4294967296 ∣ s.card then .ok (.elem (s.min' h.1), s.erase (s.min' h.1)) else .error msgEmpty
  | .min => if h : s.Nonempty ∧ ¬ 4294967296 ∣ s.card then .ok (.elem (s.min' h.1), s) else .error msgEmpty
  | .max => if h : s.Nonempty ∧ ¬ 4294967296 ∣ s.card then .ok (.elem (s.max' h.1), s) else .error msgEmpty
  | .size => .ok (.int (shown s.card), s)
  | op => op.abs s

def SOp.codeRun : Finset α → List (SOp α) → List (Except String (SRet α)) × Finset α
  | s, [] => ([], s)
  | s, op :: ops =>
    match op.code s with
    | .ok (r, s') => ((.ok r) :: (SOp.codeRun s' ops).1, (SOp.codeRun s' ops).2)
    | .error m => (.error m :: (SOp.codeRun s ops).1, (SOp.codeRun s ops).2)

/-- The operands are sets. -/
def SOp.Legal : SOp α → Prop
  | .inter t | .diff t | .union t | .symDiff t => ∀ t', t = some t' → Increasing ltOf t'
  | _ => True

omit [LinearOrder α] in
theorem PSet.checkEmpty_any (s : List α) :
    checkEmpty (PSet.size s) = if 4294967296 ∣ s.length then .throw msgEmpty else .ok () := by
  have : PSet.size s = 0 ↔ 4294967296 ∣ s.length := by rw [← shown_eq_zero, shown_eq_wrap]; rfl
  unfold checkEmpty
  by_cases h : 4294967296 ∣ s.length
  · rw [if_pos (this.2 h), if_pos h]; rfl
  · rw [if_neg (fun e => h (this.1 e)), if_neg h]

omit [LinearOrder α] in
theorem PSet.checkFull_any (s : List α) :
    checkFull (PSet.size s) INT_MAX = if s.length % 4294967296 = maxLen then .throw msgFull else .ok () := by
  have : PSet.size s ≥ INT_MAX ↔ s.length % 4294967296 = maxLen := by
    unfold PSet.size wrap32 INT_MAX maxLen; omega
  unfold checkFull
  by_cases h : s.length % 4294967296 = maxLen
  · rw [if_pos (this.2 h), if_pos h]; rfl
  · rw [if_neg (fun e => h (this.1 e)), if_neg h]

theorem PSet.begin_min (s : List α) (hs : Increasing ltOf s) (h : s.toFinset.Nonempty) : PSet.stdBegin s = .ok (s.toFinset.min' h) := by
  cases s with
  | nil => simp at h
  | cons x xs =>
    have hx : (x :: xs).toFinset.min' h = x := by
      apply le_antisymm
      · exact Finset.min'_le _ _ (by simp)
      · refine Finset.le_min' _ _ _ (fun y hy => ?_)
        rw [List.mem_toFinset, List.mem_cons] at hy
        rcases hy with rfl | hy
        · exact le_refl _
        · exact le_of_lt ((List.pairwise_cons.1 (increasing_ltOf.1 hs)).1 y hy)
    rw [hx]
    simp [PSet.stdBegin, vget]

theorem PSet.rbegin_max (s : List α) (hs : Increasing ltOf s) (hne : s.toFinset.Nonempty) : PSet.stdRbegin s = .ok (s.toFinset.max' hne) := by
  have h0 : s ≠ [] := by rintro rfl; simp at hne
  have hpos : 0 < s.length := List.length_pos_iff.2 h0
  have hmem : s.getLast h0 ∈ s := List.getLast_mem h0
  have hx : s.toFinset.max' hne = s.getLast h0 := by
    apply le_antisymm
    · refine Finset.max'_le _ _ _ (fun y hy => ?_)
      rw [List.mem_toFinset] at hy
      obtain ⟨i, hi, rfl⟩ := List.mem_iff_getElem.1 hy
      rw [List.getLast_eq_getElem]
      rcases Nat.lt_or_ge i (s.length - 1) with h | h
      · exact le_of_lt (List.pairwise_iff_getElem.1 (increasing_ltOf.1 hs) i (s.length - 1) hi (by omega) h)
      · have : i = s.length - 1 := by omega
        subst this; exact le_refl _
    · exact Finset.le_max' _ _ (List.mem_toFinset.2 hmem)
  rw [hx]
  unfold PSet.stdRbegin
  rw [if_neg (by omega)]
  have := vget_ok (v := s) (i := s.length - 1) (by omega)
  simpa [List.getLast_eq_getElem] using this

theorem PSet.drop_erase (s : List α) (hs : Increasing ltOf s) (h : s.toFinset.Nonempty) :
    (s.drop 1).toFinset = s.toFinset.erase (s.toFinset.min' h) := by
  have hb := PSet.begin_min s hs h
  cases s with
  | nil => simp at h
  | cons x xs =>
    have hx : x = (x :: xs).toFinset.min' h := by
      simpa [PSet.stdBegin, vget] using hb
    rw [← hx]
    ext y
    have hn : x ∉ xs := (List.nodup_cons.1 hs.nodup).1
    simp only [List.drop_succ_cons, List.drop_zero, List.mem_toFinset, Finset.mem_erase, List.mem_cons]
    constructor
    · intro hy; exact ⟨fun e => hn (e ▸ hy), .inr hy⟩
    · rintro ⟨h1, h2 | h2⟩
      · exact absurd h2 h1
      · exact h2

theorem any_empty (s : List α) (h : ¬ (s.toFinset.Nonempty ∧ ¬ 4294967296 ∣ s.length)) : 4294967296 ∣ s.length := by
  by_cases h0 : s = []
  · subst h0; simp
  · by_contra h1
    exact h ⟨by simpa [List.toFinset_nonempty_iff] using h0, h1⟩

/-- One operation on a set of any size. -/
theorem set_step_code (op : SOp α) (s : List α) (hs : Increasing ltOf s) (hf : op.Legal) :
    match op.code s.toFinset with
    | .ok (r, f) => ∃ s', op.step ltOf s = (.ok r, s') ∧ Increasing ltOf s' ∧ s'.toFinset = f
    | .error m => op.step ltOf s = (.throw m, s) := by
  have W : StrictWeak (ltOf : α → α → Bool) := ltOf_strictWeak
  cases op with
  | add e =>
    simp only [SOp.code, SOp.step, hs.card]
    obtain ⟨m, i2, i3, i4⟩ := Tree.insert_mem W e s hs
    have hz := PSet.checkFull_any s
    by_cases h : s.length % 4294967296 = maxLen
    · rw [if_pos h] at hz ⊢
      exact Meth.run_throw (by simp only [PSet.add, Meth.get_bind, hz, Meth.lift_throw_bind])
    · rw [if_neg h] at hz ⊢
      have hb : (Tree.insert ltOf e s).2 = decide (e ∉ s.toFinset) := by
        rw [Bool.eq_iff_iff, i2, has_ltOf]; simp
      refine ⟨(Tree.insert ltOf e s).1, ?_, i3, ?_⟩
      · rw [← hb]
        exact Meth.run_ok (by simp only [PSet.add, Meth.get_bind, hz, Meth.lift_ok_bind, Meth.set_bind, Meth.pure_run])
      · ext y
        rw [List.mem_toFinset, m, has_ltOf, Finset.mem_insert, List.mem_toFinset]
        constructor
        · rintro (h | ⟨h, -⟩)
          · exact .inr h
          · exact .inl h
        · rintro (rfl | h)
          · by_cases hy : y ∈ s
            · exact .inl hy
            · exact .inr ⟨rfl, hy⟩
          · exact .inl h
  | remove e =>
    simp only [SOp.code, SOp.abs, SOp.step]
    obtain ⟨m, i2, i3, i4⟩ := Tree.erase_mem W e s hs
    have hb : ((Tree.erase ltOf e s).2 == 1) = decide (e ∈ s.toFinset) := by
      rw [i2, Bool.eq_iff_iff]
      simp only [has_ltOf, decide_eq_true_eq, List.mem_toFinset]
      split <;> simp_all
    refine ⟨(Tree.erase ltOf e s).1, ?_, i3, ?_⟩
    · rw [← hb]
      exact Meth.run_ok (by simp only [PSet.remove, Meth.get_bind, Meth.set_bind, Meth.pure_run])
    · ext y
      rw [List.mem_toFinset, m, eqv_ltOf, Finset.mem_erase, List.mem_toFinset]
      exact ⟨fun h => ⟨fun e => h.2 e.symm, h.1⟩, fun h => ⟨h.2, fun e => h.1 e.symm⟩⟩
  | pop =>
    simp only [SOp.code, SOp.step, hs.card]
    have hz := PSet.checkEmpty_any s
    by_cases h : s.toFinset.Nonempty ∧ ¬ 4294967296 ∣ s.length
    · rw [dif_pos h]
      rw [if_neg h.2] at hz
      exact ⟨s.drop 1, Meth.run_ok (by
        simp only [PSet.pop, Meth.get_bind, hz, Meth.lift_ok_bind, PSet.begin_min s hs h.1, Meth.set_bind, Meth.pure_run]), List.Pairwise.drop hs, PSet.drop_erase s hs h.1⟩
    · rw [dif_neg h]
      rw [if_pos (any_empty s h)] at hz
      exact Meth.run_throw (by simp only [PSet.pop, Meth.get_bind, hz, Meth.lift_throw_bind])
  | min =>
    simp only [SOp.code, SOp.step, hs.card, Meth.get_bind, PSet.min]
    have hz := PSet.checkEmpty_any s
    by_cases h : s.toFinset.Nonempty ∧ ¬ 4294967296 ∣ s.length
    · rw [dif_pos h]
      rw [if_neg h.2] at hz
      rw [hz, Res.ok_bind, PSet.begin_min s hs h.1]
      exact ⟨s, rfl, hs, rfl⟩
    · rw [dif_neg h]
      rw [if_pos (any_empty s h)] at hz
      rw [hz]; rfl
  | max =>
    simp only [SOp.code, SOp.step, hs.card, Meth.get_bind, PSet.max]
    have hz := PSet.checkEmpty_any s
    by_cases h : s.toFinset.Nonempty ∧ ¬ 4294967296 ∣ s.length
    · rw [dif_pos h]
      rw [if_neg h.2] at hz
      rw [hz, Res.ok_bind, PSet.rbegin_max s hs h.1]
      exact ⟨s, rfl, hs, rfl⟩
    · rw [dif_neg h]
      rw [if_pos (any_empty s h)] at hz
      rw [hz]; rfl
  | contains e =>
    simp only [SOp.code, SOp.abs, SOp.step]
    have hb : PSet.contains ltOf s e = decide (e ∈ s.toFinset) := by
      unfold PSet.contains PSet.find
      rw [Bool.eq_iff_iff, bne_iff_ne, ne_eq, Tree.find_none W e s hs, has_ltOf]; simp
    rw [← hb]
    exact ⟨s, rfl, hs, rfl⟩
  | size =>
    simp only [SOp.code, SOp.step, hs.card, shown_eq_wrap]
    exact ⟨s, rfl, hs, rfl⟩
  | extend xs =>
    simp only [SOp.code, SOp.abs, SOp.step]
    obtain ⟨i1, i2, -, -⟩ := Tree.insertAll_spec W xs s hs
    have hx : (Tree.insertAll ltOf xs s).toFinset = s.toFinset ∪ xs.toFinset := by
      ext y
      have := i2 y
      simp only [has_ltOf] at this
      simp [this]
    refine ⟨Tree.insertAll ltOf xs s, rfl, i1, hx⟩
  | clear =>
    simp only [SOp.code, SOp.abs, SOp.step]
    exact ⟨[], rfl, List.Pairwise.nil, by simp⟩
  | inter t =>
    simp only [SOp.code, SOp.abs, SOp.step]
    have ht : Increasing ltOf (t.getD s) := by
      cases t with
      | none => exact hs
      | some t => exact hf t rfl
    obtain ⟨i1, i2, -, -⟩ := C43_inter W s (t.getD s) hs ht
    have e : t.elim s.toFinset List.toFinset = (t.getD s).toFinset := by cases t <;> rfl
    have hx : (PSet.inter ltOf s (t.getD s)).toFinset = s.toFinset ∩ (t.getD s).toFinset := by
      ext y
      have := i2 y
      simp only [has_ltOf] at this
      simp [this]
    refine ⟨PSet.inter ltOf s (t.getD s), rfl, i1, by rw [e]; exact hx⟩
  | union t =>
    simp only [SOp.code, SOp.abs, SOp.step]
    have ht : Increasing ltOf (t.getD s) := by
      cases t with
      | none => exact hs
      | some t => exact hf t rfl
    obtain ⟨i1, i2, -, -⟩ := C43_union W s (t.getD s) hs ht
    have e : t.elim s.toFinset List.toFinset = (t.getD s).toFinset := by cases t <;> rfl
    have hx : (PSet.union ltOf s (t.getD s)).toFinset = s.toFinset ∪ (t.getD s).toFinset := by
      ext y
      have := i2 y
      simp only [has_ltOf] at this
      simp [this]
    refine ⟨PSet.union ltOf s (t.getD s), rfl, i1, by rw [e]; exact hx⟩
  | diff t =>
    simp only [SOp.code, SOp.abs, SOp.step]
    have ht : Increasing ltOf (t.getD s) := by
      cases t with
      | none => exact hs
      | some t => exact hf t rfl
    obtain ⟨i1, i2, -, -⟩ := C43_diff W s (t.getD s) hs ht
    have e : t.elim s.toFinset List.toFinset = (t.getD s).toFinset := by cases t <;> rfl
    have hx : (PSet.diff ltOf s (t.getD s)).toFinset = s.toFinset \ (t.getD s).toFinset := by
      ext y
      have := i2 y
      simp only [has_ltOf] at this
      simp [this]
    refine ⟨PSet.diff ltOf s (t.getD s), rfl, i1, by rw [e]; exact hx⟩
  | symDiff t =>
    simp only [SOp.code, SOp.abs, SOp.step]
    have ht : Increasing ltOf (t.getD s) := by
      cases t with
      | none => exact hs
      | some t => exact hf t rfl
    obtain ⟨i1, i2, -, -⟩ := C43_symDiff W s (t.getD s) hs ht
    have e : t.elim s.toFinset List.toFinset = (t.getD s).toFinset := by cases t <;> rfl
    have hx : (PSet.symDiff ltOf s (t.getD s)).toFinset = symmDiff s.toFinset (t.getD s).toFinset := by
      ext y
      have := i2 y
      simp only [has_ltOf] at this
      simp [this, Finset.mem_symmDiff]
    refine ⟨PSet.symDiff ltOf s (t.getD s), rfl, i1, by rw [e]; exact hx⟩

/-- C45, every history of every set, of whatever size: all results and exceptions are those of `SOp.code`, and so are the elements. -/
theorem C45_set_history_exact (ops : List (SOp α)) (s : List α) (hs : Increasing ltOf s) (hf : ∀ op ∈ ops, op.Legal) :
    (SOp.run ltOf ops s).1 = (SOp.codeRun s.toFinset ops).1.map seen ∧
    Increasing ltOf (SOp.run ltOf ops s).2 ∧ (∀ x, x ∈ (SOp.run ltOf ops s).2 ↔ x ∈ (SOp.codeRun s.toFinset ops).2) := by
  induction ops generalizing s with
  | nil => simp [SOp.run, SOp.codeRun, hs]
  | cons op ops ih =>
    obtain ⟨hfair, hrest⟩ := List.forall_mem_cons.1 hf
    have hstep := set_step_code op s hs hfair
    cases habs : op.code s.toFinset with
    | ok x =>
      obtain ⟨r, f⟩ := x
      simp only [habs] at hstep
      obtain ⟨s', e, h1, h3⟩ := hstep
      obtain ⟨k1, k2, k3⟩ := ih s' h1 hrest
      rw [h3] at k1 k3
      simp only [SOp.run, SOp.codeRun, habs, e, List.map_cons, seen]
      exact ⟨by rw [k1], k2, k3⟩
    | error m =>
      simp only [habs] at hstep
      obtain ⟨k1, k2, k3⟩ := ih s hs hrest
      simp only [SOp.run, SOp.codeRun, habs, hstep, List.map_cons, seen]
      exact ⟨by rw [k1], k2, k3⟩

/-- C44, sets of any size: `s < t` says that `s` is a subset and the sizes differ by no multiple of `2^32`. -/
theorem C44_proper_exact {α : Type} {lt : α → α → Bool} (W : StrictWeak lt) (s t : List α) (hs : Increasing lt s) (ht : Increasing lt t) :
    (PSet.lss lt s t = true ↔ (∀ x, Has lt s x → Has lt t x) ∧ s.length % 4294967296 ≠ t.length % 4294967296) ∧
    (PSet.gtr lt s t = true ↔ (∀ x, Has lt t x → Has lt s x) ∧ s.length % 4294967296 ≠ t.length % 4294967296) := by
  have key : ∀ s t : List α, Increasing lt s → Increasing lt t →
      (PSet.lss lt s t = true ↔ (∀ x, Has lt s x → Has lt t x) ∧ s.length % 4294967296 ≠ t.length % 4294967296) := by
    intro s t hs ht
    unfold PSet.lss
    rw [Bool.and_eq_true, bne_iff_ne, (C44_subset W s t hs ht).1, and_comm]
    refine and_congr_right (fun _ => not_congr ?_)
    unfold PSet.size wrap32
    omega
  refine ⟨key s t hs ht, ?_⟩
  unfold PSet.gtr
  rw [key t s ht hs, ne_comm]

/-- A set of `2^32` elements, which `extend` builds from a range: it claims to be empty, `pop`, `min` and `max` refuse to work, and `add` goes on. -/
theorem C45_set_huge_not (s : List α) (hs : Increasing ltOf s) (hl : s.length = 4294967296) (e : α) :
    (SOp.run ltOf [.size, .pop, .min, .max, .add e] s).1 =
      [.ok (.int 0), .throw msgEmpty, .throw msgEmpty, .throw msgEmpty, .ok (.bool (decide (e ∉ s)))] := by
  have hc : s.toFinset.card = 4294967296 := by rw [hs.card, hl]
  rw [(C45_set_history_exact [.size, .pop, .min, .max, .add e] s hs (by simp [SOp.Legal])).1]
  have h0 : shown 4294967296 = 0 := by decide
  simp [SOp.codeRun, SOp.code, hc, h0, seen, maxLen]

example : Increasing ltOf (PSet.ofRange ltOf (List.range 4294967296)) ∧ (PSet.ofRange ltOf (List.range 4294967296)).length = 4294967296 := by
  have h := C45_set_construct (List.range 4294967296)
  have e : PSet.ofRange ltOf (List.range 4294967296) = List.range 4294967296 :=
    h.1.ext (increasing_ltOf.2 List.pairwise_lt_range) h.2
  exact ⟨h.1, by rw [e, List.length_range]⟩

end set

section dict
variable {K V : Type} [LinearOrder K]

/-- What an operation does to a dictionary of any size. -/
def MOp.code (m : FMap K V) : MOp K V → Except String (MRet K V × FMap K V)
  | .add k v => if m.keys.card % 4294967296 = maxLen then .error msgFull else .ok (.bool (decide (k ∉ m)), m.addNew (k, v))
  | .pop => if 4294967296 ∣ m.keys.card then .error msgEmpty else (MOp.pop : MOp K V).abs m
  | .size => .ok (.int (shown m.keys.card), m)
  | op => op.abs m

def MOp.codeRun : FMap K V → List (MOp K V) → List (Except String (MRet K V)) × FMap K V
  | m, [] => ([], m)
  | m, op :: ops =>
    match op.code m with
    | .ok (r, m') => ((.ok r) :: (MOp.codeRun m' ops).1, (MOp.codeRun m' ops).2)
    | .error e => (.error e :: (MOp.codeRun m ops).1, (MOp.codeRun m ops).2)

omit [LinearOrder K] in
theorem PDict.checkEmpty_any (d : List (K × V)) :
    checkEmpty (PDict.size d) = if 4294967296 ∣ d.length then .throw msgEmpty else .ok () := by
  have : PDict.size d = 0 ↔ 4294967296 ∣ d.length := by rw [← shown_eq_zero, shown_eq_wrap]; rfl
  unfold checkEmpty
  by_cases h : 4294967296 ∣ d.length
  · rw [if_pos (this.2 h), if_pos h]; rfl
  · rw [if_neg (fun e => h (this.1 e)), if_neg h]

omit [LinearOrder K] in
theorem PDict.checkFull_any (d : List (K × V)) :
    checkFull (PDict.size d) INT_MAX = if d.length % 4294967296 = maxLen then .throw msgFull else .ok () := by
  have : PDict.size d ≥ INT_MAX ↔ d.length % 4294967296 = maxLen := by
    unfold PDict.size wrap32 INT_MAX maxLen; omega
  unfold checkFull
  by_cases h : d.length % 4294967296 = maxLen
  · rw [if_pos (this.2 h), if_pos h]; rfl
  · rw [if_neg (fun e => h (this.1 e)), if_neg h]

/-- One operation on a dictionary of any size. -/
theorem dict_step_code (op : MOp K V) (d : List (K × V)) (m : FMap K V) (hd : Increasing kLt d) (h : Holds d m) :
    match op.code m with
    | .ok (r, m') => ∃ d', op.step ltOf d = (.ok r, d') ∧ Increasing kLt d' ∧ Holds d' m'
    | .error e => op.step ltOf d = (.throw e, d) := by
  have W : StrictWeak (kLt (K := K) (V := V)) := kLt_strictWeak
  cases op with
  | add k v =>
    simp only [MOp.code, MOp.step, h.card hd]
    obtain ⟨-, i2, i3, i4⟩ := Tree.insert_mem W (k, v) d hd
    have hz := PDict.checkFull_any d
    by_cases hc : d.length % 4294967296 = maxLen
    · rw [if_pos hc] at hz ⊢
      exact Meth.run_throw (by simp only [PDict.add, Meth.get_bind, hz, Meth.lift_throw_bind])
    · rw [if_neg hc] at hz ⊢
      have hb : (Tree.insert kLt (k, v) d).2 = decide (k ∉ m) := by
        rw [Bool.eq_iff_iff, i2, has_kLt, decide_eq_true_eq, h.mem]
      refine ⟨(Tree.insert kLt (k, v) d).1, ?_, i3, holds_insert hd h (k, v)⟩
      rw [← hb]
      exact Meth.run_ok (by simp only [PDict.add, Meth.get_bind, hz, Meth.lift_ok_bind, Meth.set_bind, Meth.pure_run])
  | remove k =>
    simp only [MOp.code, MOp.abs, MOp.step]
    by_cases hd0 : d = []
    · subst hd0
      have hk : k ∉ m := by rw [h.mem]; simp
      refine ⟨[], ?_, hd, ?_⟩
      · have hr : PDict.remove ltOf k ([] : List (K × V)) = (.ok false, []) := rfl
        rw [Meth.run_ok hr]; simp [hk]
      · intro k' v'
        by_cases e : k' = k
        · subst e; simp
        · rw [Finmap.lookup_erase_ne e]; exact h k' v'
    · obtain ⟨p, ps, rfl⟩ := List.exists_cons_of_ne_nil hd0
      obtain ⟨-, i2, i3, i4⟩ := Tree.erase_mem W (k, p.2) (p :: ps) hd
      have hb : ((Tree.erase kLt (k, p.2) (p :: ps)).2 == 1) = decide (k ∈ m) := by
        rw [i2, Bool.eq_iff_iff, decide_eq_true_eq, h.mem]
        have := has_kLt (d := p :: ps) (p := (k, p.2))
        by_cases hh : Has kLt (p :: ps) (k, p.2)
        · rw [if_pos hh]; exact ⟨fun _ => this.1 hh, fun _ => rfl⟩
        · rw [if_neg hh]; exact ⟨fun e => absurd e (by decide), fun e => absurd (this.2 e) hh⟩
      refine ⟨(Tree.erase kLt (k, p.2) (p :: ps)).1, ?_, i3, holds_erase hd h (k, p.2)⟩
      rw [← hb]
      exact Meth.run_ok (by
        simp only [PDict.remove, Meth.get_bind, Meth.set_bind, Meth.pure_run, mapErase_eq ltOf k p.2])
  | assign k v =>
    simp only [MOp.code, MOp.abs, MOp.step]
    have hfind := PDict.find_run hd h k
    by_cases hk : k ∈ m
    · rw [if_pos hk]
      obtain ⟨w, hw⟩ := Option.isSome_iff_exists.1 (Finmap.lookup_isSome.2 hk)
      rw [hw] at hfind
      obtain ⟨i, e1, e2⟩ := hfind
      obtain ⟨a1, a2⟩ := holds_assign hd h e2 v
      refine ⟨d.set i (k, v), ?_, a1, a2⟩
      exact Meth.run_ok (a := ()) (by
        simp only [PDict.assign, Meth.get_bind, PDict.refAt, e1, Meth.lift_ok_bind, vget_some e2, Meth.set_run])
    · rw [if_neg hk]
      rw [Finmap.lookup_eq_none.2 hk] at hfind
      exact Meth.run_throw (by
        simp only [PDict.assign, Meth.get_bind, PDict.refAt, hfind, Meth.lift_throw_bind, msgKey])
  | get k =>
    simp only [MOp.code, MOp.abs, MOp.step, Meth.get_bind, PDict.get_run hd h k]
    cases m.lookup k with
    | none => rfl
    | some v => exact ⟨d, rfl, hd, h⟩
  | getOr k v =>
    simp only [MOp.code, MOp.abs, MOp.step, Meth.get_bind, PDict.getOr, PDict.contains_run hd h k, PDict.get_run hd h k]
    cases hlk : m.lookup k with
    | none =>
      have hk : k ∉ m := Finmap.lookup_eq_none.1 hlk
      exact ⟨d, by simp [hk], hd, h⟩
    | some w =>
      have hk : k ∈ m := Finmap.mem_of_lookup_eq_some hlk
      exact ⟨d, by simp [hk], hd, h⟩
  | contains k =>
    simp only [MOp.code, MOp.abs, MOp.step, Meth.get_bind, PDict.contains_run hd h k]
    exact ⟨d, rfl, hd, h⟩
  | pop =>
    simp only [MOp.code, MOp.abs, MOp.step, h.card hd]
    have hz := PDict.checkEmpty_any d
    by_cases hc : 4294967296 ∣ d.length
    · rw [if_pos hc] at hz ⊢
      exact Meth.run_throw (by simp only [PDict.pop, Meth.get_bind, hz, Meth.lift_throw_bind])
    · rw [if_neg hc] at hz ⊢
      cases d with
      | nil => exact absurd (by simp) hc
      | cons p ps =>
        rw [least_cons hd h]
        have hb : PSet.stdBegin (p :: ps) = .ok p := by simp [PSet.stdBegin, vget]
        have he := holds_erase hd h p
        have hps : (Tree.erase kLt p (p :: ps)).1 = ps := by
          have : (kLt p p : Bool) = false := W.irrefl p
          simp [Tree.erase, this]
        rw [hps] at he
        refine ⟨ps, ?_, (Increasing.cons.1 hd).2, he⟩
        exact Meth.run_ok (by
          simp only [PDict.pop, Meth.get_bind, hz, Meth.lift_ok_bind, hb, Meth.set_bind, Meth.pure_run, List.drop_succ_cons, List.drop_zero])
  | size =>
    simp only [MOp.code, MOp.step, h.card hd, shown_eq_wrap]
    exact ⟨d, rfl, hd, h⟩
  | extend xs =>
    simp only [MOp.code, MOp.abs, MOp.step]
    obtain ⟨i1, i2⟩ := holds_insertAll xs hd h
    refine ⟨Tree.insertAll kLt xs d, rfl, i1, i2⟩
  | clear =>
    simp only [MOp.code, MOp.abs, MOp.step]
    exact ⟨[], rfl, List.Pairwise.nil, fun k v => by simp⟩

/-- C46, every history of every dictionary, of whatever size: all results and exceptions are those of `MOp.code`, and so are the pairs. -/
theorem C46_dict_history_exact (ops : List (MOp K V)) (d : List (K × V)) (m : FMap K V) (hd : Increasing kLt d) (h : Holds d m) :
    (MOp.run ltOf ops d).1 = (MOp.codeRun m ops).1.map seen ∧
    (MOp.run ltOf ops d).2.Pairwise (fun p q => p.1 < q.1) ∧
    (∀ k v, (k, v) ∈ (MOp.run ltOf ops d).2 ↔ (MOp.codeRun m ops).2.lookup k = some v) := by
  induction ops generalizing d m with
  | nil =>
    refine ⟨rfl, ?_, h⟩
    have := increasing_ltOf.1 (increasing_keys.1 hd)
    rwa [List.pairwise_map] at this
  | cons op ops ih =>
    have hstep := dict_step_code op d m hd h
    cases habs : op.code m with
    | ok x =>
      obtain ⟨r, m'⟩ := x
      simp only [habs] at hstep
      obtain ⟨d', e, h1, h3⟩ := hstep
      obtain ⟨k1, k2, k3⟩ := ih d' m' h1 h3
      simp only [MOp.run, MOp.codeRun, habs, e, List.map_cons, seen]
      exact ⟨by rw [k1], k2, k3⟩
    | error e =>
      simp only [habs] at hstep
      obtain ⟨k1, k2, k3⟩ := ih d m hd h
      simp only [MOp.run, MOp.codeRun, habs, hstep, List.map_cons, seen]
      exact ⟨by rw [k1], k2, k3⟩

/-- A small history on a dictionary, where `MOp.code` is the same as `MOp.abs`. -/
example : (MOp.run ltOf [.add 2 "b", .add 1 "a", .add 2 "c", .pop, .size, .pop, .pop] ([] : List (Nat × String))).1 =
    [.ok (.bool true), .ok (.bool true), .ok (.bool false), .ok (.pair (1, "a")), .ok (.int 1), .ok (.pair (2, "b")), .throw msgEmpty] := by decide +kernel

end dict

end Pyincpp
