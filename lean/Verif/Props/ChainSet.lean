import Verif.Model.ChainSet
import Verif.Props.Chain
import Verif.Props.Set
import Verif.Props.Deque

/-! # C111 for `Set` and `Deque` -/

namespace Pyincpp

variable {α : Type}

/-- The set operations. -/
def SetBin.on [DecidableEq α] (s t : Finset α) : SetBin → Finset α
  | .inter => s ∩ t
  | .union => s ∪ t
  | .diff => s \ t
  | .symDiff => (s \ t) ∪ (t \ s)

/-- The operation of a call, and its operand. -/
def SCall.parts : SCall α → SetBin × List α
  | .assign o t | .bin o t => (o, t)

/-- What a chain makes of a set. -/
def SCall.chain [DecidableEq α] (s : Finset α) (ks : List (SCall α)) : Finset α :=
  ks.foldl (fun s k => k.parts.1.on s k.parts.2.toFinset) s

/-- Does it return a set by value? -/
def SCall.Value : SCall α → Prop
  | .bin _ _ => True
  | _ => False

/-- C111 for `Set`: a chain of calls gives the set that the operations make one after the other, in order and without repetition;
nothing throws. -/
theorem C111_set_value [LinearOrder α] (ks : List (SCall α)) (s : List α) (hs : Increasing ltOf s)
    (hk : ∀ k ∈ ks, Increasing ltOf k.parts.2) :
    ∃ r, Chain.value s (ks.map (SCall.call ltOf)) = .ok r ∧ Increasing ltOf r ∧ r.toFinset = SCall.chain s.toFinset ks := by
  induction ks generalizing s with
  | nil => exact ⟨s, rfl, hs, rfl⟩
  | cons k ks ih =>
    have W : StrictWeak (ltOf : α → α → Bool) := ltOf_strictWeak
    have ht := hk k List.mem_cons_self
    have rest := fun k' (h : k' ∈ ks) => hk k' (List.mem_cons_of_mem _ h)
    have key : ∀ s' : List α, Chain.value s [k.call ltOf] = .ok s' → Increasing ltOf s' →
        (∀ x, x ∈ s' ↔ x ∈ k.parts.1.on s.toFinset k.parts.2.toFinset) →
        ∃ r, Chain.value s ((k :: ks).map (SCall.call ltOf)) = .ok r ∧ Increasing ltOf r ∧ r.toFinset = SCall.chain s.toFinset (k :: ks) := by
      intro s' h1 h2 h3
      obtain ⟨r, g1, g2, g3⟩ := ih s' h2 rest
      refine ⟨r, ?_, g2, ?_⟩
      · rw [List.map_cons, ← g1]
        rcases k with ⟨o, t⟩ | ⟨o, t⟩ <;> cases o <;>
        · simp only [SCall.call, Chain.value] at h1 ⊢
          first
            | (obtain rfl := Res.ok.inj h1; rfl)
      · rw [g3]
        have : s'.toFinset = k.parts.1.on s.toFinset k.parts.2.toFinset := by
          ext x
          rw [List.mem_toFinset, h3]
        rw [this]
        rfl
    rcases k with ⟨o, t⟩ | ⟨o, t⟩ <;> cases o
    · obtain ⟨a, b, -, d⟩ := C43_inter W s t hs ht
      exact key _ (by simp only [SCall.call, Chain.value, d]) a (fun x => by simpa [has_ltOf, SCall.parts, SetBin.on] using b x)
    · obtain ⟨a, b, -, d⟩ := C43_union W s t hs ht
      exact key _ (by simp only [SCall.call, Chain.value, d]) a (fun x => by simpa [has_ltOf, SCall.parts, SetBin.on] using b x)
    · obtain ⟨a, b, -, d⟩ := C43_diff W s t hs ht
      exact key _ (by simp only [SCall.call, Chain.value, d]) a (fun x => by simpa [has_ltOf, SCall.parts, SetBin.on] using b x)
    · obtain ⟨a, b, -, d⟩ := C43_symDiff W s t hs ht
      exact key _ (by simp only [SCall.call, Chain.value, d]) a (fun x => by simpa [has_ltOf, SCall.parts, SetBin.on] using b x)
    · obtain ⟨a, b, -, d⟩ := C43_inter W s t hs ht
      exact key _ rfl a (fun x => by simpa [has_ltOf, SCall.parts, SetBin.on] using b x)
    · obtain ⟨a, b, -, d⟩ := C43_union W s t hs ht
      exact key _ rfl a (fun x => by simpa [has_ltOf, SCall.parts, SetBin.on] using b x)
    · obtain ⟨a, b, -, d⟩ := C43_diff W s t hs ht
      exact key _ rfl a (fun x => by simpa [has_ltOf, SCall.parts, SetBin.on] using b x)
    · obtain ⟨a, b, -, d⟩ := C43_symDiff W s t hs ht
      exact key _ rfl a (fun x => by simpa [has_ltOf, SCall.parts, SetBin.on] using b x)

/-- C111 for `Set`, exact extent: a loop over the result of a chain on a temporary set goes through the result if the last member
returns a set by value, and is undefined otherwise. -/
theorem C111_set_exact (lt : α → α → Bool) (h : Heap (List α)) (s w : List α) (ks : List (SCall α)) (last : SCall α)
    (hw : Chain.value s ((ks ++ [last]).map (SCall.call lt)) = .ok w) :
    (last.Value → Chain.loop h (.temp s) ((ks ++ [last]).map (SCall.call lt)) = .ok w) ∧
    (¬ last.Value → Chain.loop h (.temp s) ((ks ++ [last]).map (SCall.call lt)) = .ub .badDeref) := by
  have E := Chain.C111_reference_exact (h := h) (r := .temp s) (v := s) rfl _ hw
  have hr : Chain.ByReference ((ks ++ [last]).map (SCall.call lt)) ↔ ¬ last.Value := by
    unfold Chain.ByReference
    rw [List.map_append, List.map_cons, List.map_nil, List.getLast?_append]
    rcases last with ⟨o, t⟩ | ⟨o, t⟩ <;> cases o <;> simp [SCall.call, SCall.Value]
  exact ⟨fun hv => E.2 (fun hn => hr.1 hn.2 hv), fun hv => E.1 ⟨.inl ⟨_, rfl⟩, hr.2 hv⟩⟩

/-- `(Set{1, 2} |= {2, 3}) - {1}`. -/
example : SCall.chain ({1, 2} : Finset ℤ) [.assign .union [2, 3], .bin .diff [1]] = {2, 3} ∧
    (SCall.bin SetBin.diff [(1 : ℤ)]).Value ∧ Increasing ltOf [(2 : ℤ), 3] := ⟨by decide, trivial, by simp [Increasing, ltOf]⟩

/-- What a member of `Deque` makes. -/
def DCall.on (d : List α) : DCall → List α
  | .rotR n => rotated d (-n)
  | .rotL n => rotated d n
  | .reverse => d.reverse

/-- The arguments it takes. -/
def DCall.Fit : DCall → Prop
  | .rotR n => IsInt n ∧ n ≠ INT_MIN
  | .rotL n => IsInt n
  | .reverse => True

/-- C111 for `Deque`: the value of a chain. Missing: `>>= INT_MIN`, for which see C29. -/
theorem C111_deque_value_partial (ks : List DCall) (d : List α) (hd : d.length ≤ maxLen) (hk : ∀ k ∈ ks, k.Fit) :
    Chain.value d (ks.map DCall.call) = .ok (ks.foldl DCall.on d) := by
  induction ks generalizing d with
  | nil => rfl
  | cons k ks ih =>
    have hf := hk k List.mem_cons_self
    have rest := fun k' (h : k' ∈ ks) => hk k' (List.mem_cons_of_mem _ h)
    cases k with
    | rotR n =>
      have : Dq.rotR n d = (.ok (), rotated d (-n)) := Lst.rotR_run hd hf.1 (.inl hf.2)
      simp only [List.map_cons, DCall.call, Chain.value, this]
      exact ih _ (by rw [rotated_length]; exact hd) rest
    | rotL n =>
      have : Dq.rotL n d = (.ok (), rotated d n) := Lst.rotL_run hd hf
      simp only [List.map_cons, DCall.call, Chain.value, this]
      exact ih _ (by rw [rotated_length]; exact hd) rest
    | reverse =>
      have : Dq.reverse d = (.ok (), d.reverse) := by simp [Dq.reverse]
      simp only [List.map_cons, DCall.call, Chain.value, this]
      exact ih _ (by rw [List.length_reverse]; exact hd) rest

/-- C111 for `Deque`: every member that returns a deque returns a reference, so that no loop over such a result of a temporary is
defined. -/
theorem C111_deque_not (h : Heap (List α)) (d : List α) (hd : d.length ≤ maxLen) (ks : List DCall) (hk : ∀ k ∈ ks, k.Fit) (hn : ks ≠ []) :
    Chain.loop h (.temp d) (ks.map DCall.call) = .ub .badDeref := by
  refine (Chain.C111_reference_exact (h := h) (r := .temp d) (v := d) rfl _ (C111_deque_value_partial ks d hd hk)).1 ⟨.inl ⟨_, rfl⟩, ?_⟩
  obtain ⟨init, last, rfl⟩ := List.eq_nil_or_concat ks |>.resolve_left hn
  unfold Chain.ByReference
  cases last <;> simp [DCall.call]

/-- `Deque{1, 2, 3}.reverse() <<= 1`. -/
example : [DCall.reverse, .rotL 1].foldl DCall.on [(1 : ℤ), 2, 3] = [2, 1, 3] ∧ (DCall.rotL 1).Fit := ⟨by decide +kernel, by simp [DCall.Fit, IsInt, INT_MIN, INT_MAX]⟩

end Pyincpp
