import Verif.Model.Chain
import Mathlib.Data.Int.Notation
import Mathlib.Data.List.Basic
import Mathlib.Data.List.Nodup

/-! # C111: chains of calls and references to their results -/

namespace Pyincpp
namespace Chain

variable {α β : Type}

/-- What the chain means if objects are values: each call makes the next value. -/
def value (v : α) : List (Call α) → Res α
  | [] => .ok v
  | .self m :: ks =>
    match m v with
    | (.ok _, v') => value v' ks
    | (.throw msg, _) => .throw msg
    | (.ub u, _) => .ub u
    | (.fuel, _) => .fuel
  | .fresh f :: ks =>
    match f v with
    | .ok v' => value v' ks
    | .throw msg => .throw msg
    | .ub u => .ub u
    | .fuel => .fuel

/-- The value the chain begins with. -/
def Begins (h : Heap α) (r : Root α) (v : α) : Prop :=
  match r with
  | .var i => h[i]? = some (some v)
  | .temp w => w = v

/-- The object reached is a temporary. -/
def Temporary (r : Root α) (ks : List (Call α)) : Prop := (∃ v, r = .temp v) ∨ ∃ f, Call.fresh f ∈ ks

/-- The chain ends with a call that returns a reference. -/
def ByReference (ks : List (Call α)) : Prop := ∃ m, ks.getLast? = some (.self m)

/-- The state in the middle of a chain. -/
structure Inv (h : Heap α) (r : Root α) (done : List (Call α)) (v : α) (c : Chain α) : Prop where
  here : c.heap[c.cur]? = some (some v)
  mine : ∀ i ∈ c.temps, h.length ≤ i ∧ i < c.heap.length
  nodup : c.temps.Nodup
  all : ∀ i, h.length ≤ i → i < c.heap.length → i ∈ c.temps
  mem : c.cur ∈ c.temps ↔ Temporary r done
  pr : c.prvalue = true ↔ Temporary r done ∧ ¬ ByReference done
  var : c.cur ∉ c.temps → ∃ i, r = .var i ∧ c.cur = i
  len : h.length ≤ c.heap.length
  old : ∀ i < h.length, (∀ j, r = .var j → j ≠ i) → c.heap[i]? = h[i]?

theorem inv_start {h : Heap α} {r : Root α} {v : α} (hb : Begins h r v) : Inv h r [] v (start h r) := by
  cases r with
  | var i =>
    refine ⟨hb, by simp [start], by simp [start], fun _ h1 h2 => absurd h2 (Nat.not_lt.2 h1), ?_, ?_, fun _ => ⟨i, rfl, rfl⟩, Nat.le_refl _, fun _ _ _ => rfl⟩
    · simp [start, Temporary]
    · simp [start, Temporary]
  | temp w =>
    obtain rfl : w = v := hb
    refine ⟨by simp [start], by simp [start], by simp [start], ?_, ?_, ?_, by simp [start], by simp [start], ?_⟩
    · intro i h1 h2
      simp [start] at h2 ⊢
      omega
    · simp [start, Temporary]
    · simp [start, Temporary, ByReference]
    · intro i hi _
      simp only [start]
      rw [List.getElem?_append_left hi]

theorem inv_self {h : Heap α} {r : Root α} {done : List (Call α)} {v v' : α} {c : Chain α} (I : Inv h r done v c) (m : Meth α Unit) :
    Inv h r (done ++ [.self m]) v' { c with heap := c.heap.set c.cur (some v'), prvalue := false } := by
  have hc : c.cur < c.heap.length := (List.getElem?_eq_some_iff.1 I.here).1
  have ht : Temporary r (done ++ [.self m]) ↔ Temporary r done := by simp [Temporary]
  refine ⟨by simp [hc], by simpa using I.mine, I.nodup, by simpa using I.all, by rw [ht]; exact I.mem, ?_, I.var, by simpa using I.len, ?_⟩
  · simp [ByReference]
  · intro i hi hv
    have : c.cur ≠ i := by
      intro e
      have hn : c.cur ∉ c.temps := fun hm => by have := (I.mine _ hm).1; omega
      obtain ⟨j, hj, hj'⟩ := I.var hn
      exact hv j hj (by omega)
    simp only [List.getElem?_set_ne this]
    exact I.old i hi hv

theorem inv_fresh {h : Heap α} {r : Root α} {done : List (Call α)} {v v' : α} {c : Chain α} (I : Inv h r done v c) (f : α → Res α) :
    Inv h r (done ++ [.fresh f]) v' ⟨c.heap ++ [some v'], c.heap.length, c.heap.length :: c.temps, true⟩ := by
  have ht : Temporary r (done ++ [.fresh f]) := .inr ⟨f, by simp⟩
  refine ⟨by simp, ?_, ?_, ?_, by simp [ht], by simp [ht, ByReference], by simp, by have := I.len; simp; omega, ?_⟩
  · intro i hi
    rcases List.mem_cons.1 hi with rfl | hi
    · exact ⟨I.len, by simp⟩
    · have := I.mine i hi
      simp
      omega
  · rw [List.nodup_cons]
    exact ⟨fun hm => by have := (I.mine _ hm).2; omega, I.nodup⟩
  · intro i h1 h2
    simp only [List.length_append, List.length_singleton] at h2
    rcases Nat.lt_or_ge i c.heap.length with h3 | h3
    · exact List.mem_cons_of_mem _ (I.all i h1 h3)
    · exact List.mem_cons.2 (.inl (by omega))
  · intro i hi hv
    rw [← I.old i hi hv]
    simp only
    rw [List.getElem?_append_left (by have := I.len; omega)]

theorem read_here {h : Heap α} {i : ℕ} {v : α} (e : h[i]? = some (some v)) : h.read i = .ok v := by
  unfold Heap.read
  rw [e]

/-- The calls of a chain make the values they should, and keep the invariant. -/
theorem calls_value (h : Heap α) (r : Root α) (ks : List (Call α)) : ∀ (done : List (Call α)) (v : α) (c : Chain α), Inv h r done v c →
    match value v ks with
    | .ok w => ∃ c', c.calls ks = .ok c' ∧ Inv h r (done ++ ks) w c'
    | .throw m => c.calls ks = .throw m
    | .ub u => c.calls ks = .ub u
    | .fuel => c.calls ks = .fuel := by
  induction ks with
  | nil =>
    intro done v c I
    exact ⟨c, rfl, by simpa using I⟩
  | cons k ks ih =>
    intro done v c I
    have hr := read_here I.here
    cases k with
    | self m =>
      simp only [value, calls, step, hr, Res.ok_bind]
      rcases e : m v with ⟨o, v'⟩
      cases o with
      | ok _ =>
        simp only [Res.ok_bind]
        have := ih _ v' _ (inv_self I m)
        rw [List.append_assoc] at this
        exact this
      | throw => rfl
      | ub => rfl
      | fuel => rfl
    | fresh f =>
      simp only [value, calls, step, hr, Res.ok_bind]
      cases e : f v with
      | ok v' =>
        simp only [Res.ok_bind]
        have := ih _ v' _ (inv_fresh I f)
        rw [List.append_assoc] at this
        exact this
      | throw => rfl
      | ub => rfl
      | fuel => rfl

theorem destroy_get (is : List ℕ) : ∀ (h : Heap α) (j : ℕ), j < h.length → (h.destroy is)[j]? = if j ∈ is then some none else h[j]? := by
  induction is with
  | nil => intro h j _; simp [Heap.destroy]
  | cons i is ih =>
    intro h j hj
    have := ih (h.set i none) j (by simpa using hj)
    unfold Heap.destroy at this ⊢
    rw [List.foldl_cons, this]
    by_cases h1 : j ∈ is
    · simp [h1]
    · by_cases h2 : j = i
      · subst h2
        simp [h1, hj]
      · rw [List.getElem?_set_ne (fun e => h2 e.symm)]
        simp [h1, h2]

theorem destroy_length (is : List ℕ) : ∀ h : Heap α, (h.destroy is).length = h.length := by
  induction is with
  | nil => intro h; rfl
  | cons i is ih =>
    intro h
    have := ih (h.set i none)
    unfold Heap.destroy at this ⊢
    rw [List.foldl_cons, this, List.length_set]

variable {h : Heap α} {r : Root α} {v : α}

/-- C111, within the expression: whatever is done with the object reached, it is done with the value the calls make one after the
other. Exceptions and undefined behaviour are those of the calls. -/
theorem C111_use (hb : Begins h r v) (ks : List (Call α)) (g : α → Res β) : use h r ks g = (value v ks >>= g) := by
  have := calls_value h r ks [] v _ (inv_start hb)
  unfold use
  cases e : value v ks with
  | ok w =>
    rw [e] at this
    obtain ⟨c', h1, I⟩ := this
    rw [h1, Res.ok_bind, read_here I.here]
  | throw => rw [e] at this; rw [this]; rfl
  | ub => rw [e] at this; rw [this]; rfl
  | fuel => rw [e] at this; rw [this]; rfl

/-- C111, `auto x = …`: the new variable has the value of the chain, and can be read later. -/
theorem C111_copy (hb : Begins h r v) (ks : List (Call α)) : (copy h r ks >>= fun h' => h'.read (h'.length - 1)) = value v ks := by
  have := calls_value h r ks [] v _ (inv_start hb)
  unfold copy
  cases e : value v ks with
  | ok w =>
    rw [e] at this
    obtain ⟨c', h1, I⟩ := this
    rw [h1, Res.ok_bind, read_here I.here, Res.ok_bind, Res.ok_bind]
    exact read_here (by simp)
  | throw => rw [e] at this; rw [this]; rfl
  | ub => rw [e] at this; rw [this]; rfl
  | fuel => rw [e] at this; rw [this]; rfl

/-- C111: after either declaration only the variables of before, `x` itself and the object `x` refers to are alive; no temporary is
left over. -/
theorem C111_no_leak (hb : Begins h r v) (ks : List (Call α)) :
    (∀ h', copy h r ks = .ok h' → ∀ j, h.length ≤ j → j + 1 < h'.length → h'[j]? = some none) ∧
    (∀ h' i, bind h r ks = .ok (h', i) → ∀ j, h.length ≤ j → j < h'.length → j ≠ i → h'[j]? = some none) := by
  have := calls_value h r ks [] v _ (inv_start hb)
  unfold copy bind
  cases e : value v ks with
  | ok w =>
    rw [e] at this
    obtain ⟨c, h1, I⟩ := this
    rw [h1, Res.ok_bind, Res.ok_bind, read_here I.here, Res.ok_bind]
    constructor
    · intro h' e j h2 h3
      obtain rfl := Res.ok.inj e
      rw [List.length_append, List.length_singleton, destroy_length] at h3
      rw [List.getElem?_append_left (by rw [destroy_length]; omega), destroy_get _ _ _ (by omega), if_pos (I.all j h2 (by omega))]
    · intro h' i e j h2 h3 h4
      obtain ⟨rfl, rfl⟩ := Prod.mk.inj (Res.ok.inj e)
      rw [destroy_length] at h3
      have := I.all j h2 h3
      rw [destroy_get _ _ _ h3, if_pos]
      split
      · exact (List.mem_erase_of_ne h4).2 this
      · exact this
  | throw => rw [e] at this; rw [this]; exact ⟨fun _ e => (by cases e), fun _ _ e => (by cases e)⟩
  | ub => rw [e] at this; rw [this]; exact ⟨fun _ e => (by cases e), fun _ _ e => (by cases e)⟩
  | fuel => rw [e] at this; rw [this]; exact ⟨fun _ e => (by cases e), fun _ _ e => (by cases e)⟩

/-- C111, `auto&& x = …` read later, exact extent: it is the value of the chain, unless the last call returns a reference and the
object it refers to is a temporary (the one the chain begins with, or one that a call has made); then it is undefined. -/
theorem C111_reference_exact (hb : Begins h r v) (ks : List (Call α)) {w : α} (hw : value v ks = .ok w) :
    (Temporary r ks ∧ ByReference ks → (bind h r ks >>= fun p => p.1.read p.2) = .ub .badDeref) ∧
    (¬ (Temporary r ks ∧ ByReference ks) → (bind h r ks >>= fun p => p.1.read p.2) = .ok w) := by
  have := calls_value h r ks [] v _ (inv_start hb)
  rw [hw] at this
  obtain ⟨c, h1, I⟩ := this
  rw [List.nil_append] at I
  have hl : c.cur < c.heap.length := (List.getElem?_eq_some_iff.1 I.here).1
  unfold bind
  rw [h1]
  simp only [Res.ok_bind]
  constructor
  · rintro ⟨ht, hr⟩
    have hp : c.prvalue = false := by
      rw [Bool.eq_false_iff]
      exact fun hp => (I.pr.1 hp).2 hr
    unfold Heap.read
    rw [destroy_get _ _ _ hl, hp, if_neg (show ¬ false = true by simp), if_pos (I.mem.2 ht)]
  · intro hn
    refine read_here ?_
    rw [destroy_get _ _ _ hl, if_neg, I.here]
    by_cases ht : Temporary r ks
    · have hp : c.prvalue = true := I.pr.2 ⟨ht, fun hr => hn ⟨ht, hr⟩⟩
      rw [hp, if_pos rfl]
      exact I.nodup.not_mem_erase
    · rw [if_neg (fun hp => ht (I.pr.1 hp).1)]
      exact fun hm => ht (I.mem.1 hm)

/-- C111, `auto& e = …[index]` (or a reference to another part) read later, exact extent: defined unless the object is a temporary,
also if a call has made it. -/
theorem C111_part_exact (hb : Begins h r v) (ks : List (Call α)) {w : α} (hw : value v ks = .ok w) (g : α → Res β) {x : β} (hg : g w = .ok x) :
    (Temporary r ks → bindPart h r ks g = .ub .badDeref) ∧ (¬ Temporary r ks → bindPart h r ks g = .ok x) := by
  have := calls_value h r ks [] v _ (inv_start hb)
  rw [hw] at this
  obtain ⟨c, h1, I⟩ := this
  rw [List.nil_append] at I
  have hl : c.cur < c.heap.length := (List.getElem?_eq_some_iff.1 I.here).1
  unfold bindPart
  rw [h1, Res.ok_bind, read_here I.here, Res.ok_bind, hg, Res.ok_bind]
  constructor
  · intro ht
    have : (c.heap.destroy c.temps).read c.cur = .ub .badDeref := by
      unfold Heap.read
      rw [destroy_get _ _ _ hl, if_pos (I.mem.2 ht)]
    rw [this]
    rfl
  · intro ht
    rw [read_here (v := w), Res.ok_bind, hg]
    rw [destroy_get _ _ _ hl, if_neg (fun hm => ht (I.mem.1 hm)), I.here]

/-- C111: a reference to a variable, after calls that return `*this`, is a reference to that variable, which has the value of the
chain; no other variable has changed. -/
theorem C111_alias {i : ℕ} (hb : h[i]? = some (some v)) (ks : List (Call α)) (hk : ∀ f, Call.fresh f ∉ ks) {w : α}
    (hw : value v ks = .ok w) : ∃ h', bind h (.var i) ks = .ok (h', i) ∧ h'.read i = .ok w ∧ ∀ j < h.length, j ≠ i → h'[j]? = h[j]? := by
  have ht : ¬ Temporary (.var i) ks := by
    rintro (⟨w, e⟩ | ⟨f, hf⟩)
    · cases e
    · exact hk f hf
  have := calls_value h (.var i) ks [] v _ (inv_start (show Begins h (.var i) v from hb))
  rw [hw] at this
  obtain ⟨c, h1, I⟩ := this
  rw [List.nil_append] at I
  have hl : c.cur < c.heap.length := (List.getElem?_eq_some_iff.1 I.here).1
  obtain ⟨i', e, hi⟩ := I.var (fun hm => ht (I.mem.1 hm))
  cases e
  have hmem : ∀ j < h.length, j ∉ (if c.prvalue then c.temps.erase c.cur else c.temps) := by
    intro j hj hm
    have : j ∈ c.temps := by
      split at hm
      · exact List.mem_of_mem_erase hm
      · exact hm
    have := (I.mine j this).1
    omega
  have hil : i < h.length := (List.getElem?_eq_some_iff.1 hb).1
  refine ⟨c.heap.destroy (if c.prvalue then c.temps.erase c.cur else c.temps), ?_, read_here (v := w) ?_, ?_⟩
  · unfold bind
    rw [h1, Res.ok_bind, ← hi]
  · rw [destroy_get _ _ _ (by omega), if_neg (hmem i hil), ← hi, I.here]
  · intro j hj hne
    have hlen := I.len
    rw [destroy_get _ _ _ (by omega), if_neg (hmem j hj)]
    exact I.old j hj (fun j' e => by cases e; exact hne.symm)

/-- C111, `for (x : …)`: the loop goes through the list that is the value of the chain. Missing: `C111_loop_not`. -/
theorem C111_loop_partial {h : Heap (List α)} {r : Root (List α)} {l w : List α} (hb : Begins h r l) (ks : List (Call (List α)))
    (hw : value l ks = .ok w) (hn : ¬ (Temporary r ks ∧ ByReference ks)) : loop h r ks = .ok w :=
  (C111_reference_exact hb ks hw).2 hn

/-- Does a member of `List` return a list by value? -/
def _root_.Pyincpp.LCall.Value : LCall α → Prop
  | .slice _ _ _ | .plusElem _ | .plusList _ | .minus _ | .mul _ | .divide _ => True
  | _ => False

/-- C111 for `List`, a reference to the result of a chain on a temporary, read later or in a loop: undefined unless the last member
is one that returns a list by value. -/
theorem C111_list_exact [BEq α] [Inhabited α] (mem : Mem) (k : ℕ) (h : Heap (List α)) (l w : List α) (ks : List (LCall α)) (last : LCall α)
    (hw : value l ((ks ++ [last]).map (LCall.call mem k)) = .ok w) :
    loop h (.temp l) ((ks ++ [last]).map (LCall.call mem k)) = .ok w ↔ last.Value := by
  have E := C111_reference_exact (h := h) (r := .temp l) (v := l) rfl _ hw
  have hl : ((ks ++ [last]).map (LCall.call mem k)).getLast? = some (last.call mem k) := by simp
  have hr : ByReference ((ks ++ [last]).map (LCall.call mem k)) ↔ ¬ last.Value := by
    unfold ByReference
    rw [hl]
    cases last <;> simp [LCall.call, LCall.Value]
  constructor
  · intro e
    by_contra hv
    have := E.1 ⟨.inl ⟨l, rfl⟩, hr.2 hv⟩
    unfold loop at e
    rw [this] at e
    cases e
  · exact fun hv => E.2 (fun hn => hr.1 hn.2 hv)

/-- C111 fails of `for (x : List{…}.reverse())`. -/
theorem C111_loop_not [BEq α] [Inhabited α] (mem : Mem) (h : Heap (List α)) (l : List α) :
    loop h (.temp l) [LCall.call mem 0 .reverse] = .ub .badDeref :=
  (C111_reference_exact (r := .temp l) (v := l) rfl [LCall.call mem 0 .reverse] (w := l.reverse) rfl).1 ⟨.inl ⟨l, rfl⟩, ⟨_, rfl⟩⟩

/-- C111 fails of `auto& e = List{…}[0];`, which is the first example of the readme but for the declaration. -/
theorem C111_part_not (h : Heap (List ℤ)) : bindPart h (.temp [1, 2, 3, 4, 5]) [] (fun l => Lst.get l (-1)) = .ub .badDeref ∧
    use h (.temp [1, 2, 3, 4, 5]) [] (fun l => Lst.get l (-1)) = .ok 5 :=
  ⟨(C111_part_exact (r := .temp [1, 2, 3, 4, 5]) (v := [1, 2, 3, 4, 5]) rfl [] rfl (fun l => Lst.get l (-1)) (x := 5) (by decide +kernel)).1 (.inl ⟨_, rfl⟩),
    by rw [C111_use (r := .temp [1, 2, 3, 4, 5]) (v := [1, 2, 3, 4, 5]) rfl]; decide +kernel⟩

/-- `auto&& x = List{5, 1, 3}.reverse() - 1;` is in order: the result of `-` lives on. -/
example : value ([5, 1, 3] : List ℤ) (([LCall.reverse] ++ [LCall.minus (1 : ℤ)]).map (LCall.call .strict 0)) = .ok [3, 5] ∧
    (LCall.minus (1 : ℤ)).Value := ⟨rfl, trivial⟩

end Chain
end Pyincpp
