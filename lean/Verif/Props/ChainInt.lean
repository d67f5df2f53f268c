import Verif.Model.ChainInt
import Verif.Props.Chain
import Verif.Props.IntExact
import Verif.Props.IntStream

/-! # C111 for `Int`: what a chain of calls gives, and how long it lives -/

namespace Pyincpp

/-- The same calls on integers. -/
inductive ZCall
  | assign (o : IntBin) (y : ℤ) | inc | dec | bin (o : IntBin) (y : ℤ) | pos | neg | abs

def ZCall.code : ZCall → ICall
  | .assign o y => .assign o (enc y)
  | .inc => .inc
  | .dec => .dec
  | .bin o y => .bin o (enc y)
  | .pos => .pos
  | .neg => .neg
  | .abs => .abs

/-- What one of them makes of an integer, given what a binary operator makes of two; `none` is a division by zero. -/
def ZCall.apply (f : IntBin → ℤ → ℤ → Option ℤ) (x : ℤ) : ZCall → Option ℤ
  | .assign o y | .bin o y => f o x y
  | .inc => some (x + 1)
  | .dec => some (x - 1)
  | .pos => some x
  | .neg => some (-x)
  | .abs => some |x|

/-- What a chain makes. -/
def ZCall.chain (f : IntBin → ℤ → ℤ → Option ℤ) (x : ℤ) : List ZCall → Option ℤ
  | [] => some x
  | k :: ks => match k.apply f x with
    | some y => ZCall.chain f y ks
    | none => none

/-- Does it return an `Int` by value? -/
def ZCall.Value : ZCall → Prop
  | .bin _ _ | .pos | .neg | .abs => True
  | _ => False

theorem run_code_eq {k : ℕ} (hk : 11 ≤ k) (o : IntBin) (x y : ℤ) :
    o.run .lenient k (enc x) (enc y) = match o.code x y with
      | some z => .ok (enc z)
      | none => .throw "Error: Divide by zero." := by
  cases o
  · exact add_enc (by omega) x y
  · exact sub_enc (by omega) x y
  · exact mul_enc x y
  · by_cases hy : y = 0
    · subst hy; exact div_by_zero _ k x
    · simp only [IntBin.code, IntBin.math, hy, if_false]; exact div_enc hk x hy
  · by_cases hy : y = 0
    · subst hy; exact mod_by_zero _ k x
    · have h := mod_enc hk x hy
      have e : ∀ z, (enc z).chunks.length = (Nat.digits 10 z.natAbs).length := fun z => by simp [enc]
      rw [codeMod, e, e] at h
      simp only [IntBin.code, hy, if_false]
      rw [IntBin.run, h]
      split <;> rfl

/-- C111 for `Int`: the value of a chain of calls is that of the same operations on integers one after the other, and the chain throws
exactly when one of them divides by zero. (`IntBin.code` differs from the mathematical operators in `%` of negative integers only: C08.) -/
theorem C111_int_value_exact (ks : List ZCall) (x : ℤ) {k : ℕ} (hk : 11 ≤ k) :
    Chain.value (enc x) (ks.map (fun c => c.code.call .lenient k)) = match ZCall.chain IntBin.code x ks with
      | some z => .ok (enc z)
      | none => .throw "Error: Divide by zero." := by
  induction ks generalizing x with
  | nil => rfl
  | cons c ks ih =>
    have ok : ∀ {f : BInt → Res BInt} {y : ℤ}, f (enc x) = .ok (enc y) → BInt.stepM f (enc x) = (.ok (), enc y) := by
      intro f y e
      unfold BInt.stepM
      simp only [Meth.get_bind, e, Meth.lift_ok_bind, Meth.set_run]
    simp only [List.map_cons, ZCall.chain]
    cases c with
    | assign o y =>
      simp only [ZCall.code, ICall.call, Chain.value, ZCall.apply]
      have h := run_code_eq hk o x y
      have H := C61_int_assign o false x y k hk (by simp)
      by_cases hz : (o = .div ∨ o = .mod) ∧ y = 0
      · obtain ⟨m, hm⟩ := H.1.2 hz
        have hc : o.code x y = none := by obtain ⟨rfl | rfl, rfl⟩ := hz <;> rfl
        have hm' : (BInt.assignM .lenient k false o (enc y) (enc x)).1 = .throw "Error: Divide by zero." := by
          obtain ⟨rfl | rfl, rfl⟩ := hz <;>
          · simp only [BInt.assignM, enc_zero]
            rfl
        rcases e : BInt.assignM .lenient k false o (enc y) (enc x) with ⟨a, b⟩
        rw [e] at hm'
        simp only at hm'
        rw [hm', hc]
      · obtain ⟨z, h1, h2⟩ := H.2.2 hz
        rw [runAssign_eq_run] at h1
        rw [h2]
        rw [h1] at h
        cases e : o.code x y with
        | none => rw [e] at h; cases h
        | some z' =>
          rw [e] at h
          obtain rfl := enc_injective (Res.ok.inj h)
          exact ih z
    | inc =>
      simp only [ZCall.code, ICall.call, Chain.value, ok (inc_enc x), ZCall.apply]
      exact ih _
    | dec =>
      simp only [ZCall.code, ICall.call, Chain.value, ok (dec_enc x), ZCall.apply]
      exact ih _
    | bin o y =>
      simp only [ZCall.code, ICall.call, Chain.value, ZCall.apply]
      rw [run_code_eq hk]
      cases o.code x y with
      | none => rfl
      | some z => exact ih z
    | pos => exact ih _
    | neg =>
      simp only [ZCall.code, ICall.call, Chain.value, neg_enc, ZCall.apply]
      exact ih _
    | abs =>
      simp only [ZCall.code, ICall.call, Chain.value, abs_enc, ZCall.apply]
      exact ih _

/-- C111 for `Int`: `auto x = …` has that value. -/
theorem C111_int_copy (h : Heap BInt) (r : Root BInt) (x z : ℤ) (hb : Chain.Begins h r (enc x)) (ks : List ZCall)
    (hz : ZCall.chain IntBin.code x ks = some z) {k : ℕ} (hk : 11 ≤ k) :
    (Chain.copy h r (ks.map (fun c => c.code.call .lenient k)) >>= fun h' => h'.read (h'.length - 1)) = .ok (enc z) := by
  rw [Chain.C111_copy hb, C111_int_value_exact ks x hk, hz]

/-- C111 for `Int`, exact extent: a reference to the result of a chain on a temporary can be read later if and only if the last member
returns an `Int` by value; otherwise reading it is undefined. -/
theorem C111_int_exact (h : Heap BInt) (x z : ℤ) (ks : List ZCall) (last : ZCall)
    (hz : ZCall.chain IntBin.code x (ks ++ [last]) = some z) {k : ℕ} (hk : 11 ≤ k) :
    (last.Value → (Chain.bind h (.temp (enc x)) ((ks ++ [last]).map (fun c => c.code.call .lenient k)) >>= fun p => p.1.read p.2) =
      .ok (enc z)) ∧
    (¬ last.Value → (Chain.bind h (.temp (enc x)) ((ks ++ [last]).map (fun c => c.code.call .lenient k)) >>= fun p => p.1.read p.2) =
      .ub .badDeref) := by
  have hw := C111_int_value_exact (ks ++ [last]) x hk
  rw [hz] at hw
  have E := Chain.C111_reference_exact (h := h) (r := .temp (enc x)) (v := enc x) rfl _ hw
  have hr : Chain.ByReference ((ks ++ [last]).map (fun c => c.code.call .lenient k)) ↔ ¬ last.Value := by
    unfold Chain.ByReference
    rw [List.map_append, List.map_cons, List.map_nil, List.getLast?_append]
    cases last <;> simp [ZCall.code, ICall.call, ZCall.Value]
  exact ⟨fun hv => E.2 (fun hn => hr.1 hn.2 hv), fun hv => E.1 ⟨.inl ⟨_, rfl⟩, hr.2 hv⟩⟩

/-- `((Int(7) += 5) *= 2) - 3` is 21, and a reference to it lives on; `++(Int(7) /= 0)` throws. -/
example : ZCall.chain IntBin.code 7 ([.assign .add 5, .assign .mul 2] ++ [.bin .sub 3]) = some 21 ∧ (ZCall.bin .sub 3).Value ∧
    ZCall.chain IntBin.code 7 [.assign .div 0, .inc] = none := ⟨by rfl, trivial, by rfl⟩

end Pyincpp
