import Verif.Model.RbSet
import Verif.Proof.RbTreeFind
import Verif.Props.Set

/-! # `Set` and `Dict` on the trees of libstdc++ -/

namespace Pyincpp
namespace BT

theorem onTree_ok {α β : Type} {f : BT α → Meth Nat (BT α × β)} {t t' : BT α} {n n' : Nat} {b : β} (h : f t n = (.ok (t', b), n')) :
    onTree f (t, n) = (.ok b, (t', n')) := by
  unfold onTree
  dsimp only
  rw [h]

/-- As `mb`, for any state. -/
theorem sb {σ β γ : Type} {p : Meth σ β} {f : β → Meth σ γ} {s s' : σ} {b : β} (h : p s = (.ok b, s')) : (p >>= f) s = f b s' := by
  show Meth.bind p f s = _
  rw [Meth.bind, h]

section set
variable {α : Type} {lt : α → α → Bool} {B : Balancer α}

theorem includes_ok : ∀ (t s : List α) (n : Nat), ∃ d, d ≤ 2 * t.length ∧ includes (Ans lt) t s n = (.ok (Tree.includes lt t s), n + d)
  | t, [], n => ⟨0, by omega, by cases t <;> rfl⟩
  | [], _ :: _, n => ⟨0, by omega, rfl⟩
  | a :: as, b :: bs, n => by
    cases h1 : lt b a with
    | true =>
      refine ⟨1, by simp; omega, ?_⟩
      rw [includes, mb (ask_ans _ _ _ _), h1, if_pos rfl, Tree.includes, h1]; rfl
    | false =>
      cases h2 : lt a b with
      | true =>
        obtain ⟨d, b, e⟩ := includes_ok as (b :: bs) (n + 1 + 1)
        refine ⟨d + 2, by simp; omega, ?_⟩
        rw [includes, mb (ask_ans _ _ _ _), h1, if_neg (by simp), mb (ask_ans _ _ _ _), h2, if_neg (by simp), e, Tree.includes, h1, h2,
          show n + 1 + 1 + d = n + (d + 2) by omega]; rfl
      | false =>
        obtain ⟨d, b, e⟩ := includes_ok as bs (n + 1 + 1)
        refine ⟨d + 2, by simp; omega, ?_⟩
        rw [includes, mb (ask_ans _ _ _ _), h1, if_neg (by simp), mb (ask_ans _ _ _ _), h2, if_pos (by simp), e, Tree.includes, h1, h2,
          show n + 1 + 1 + d = n + (d + 2) by omega]; rfl

theorem walkInner_ok (l r b : Bool) (a : α) (as : List α) {next : List α → Meth Nat (List α)} {next' : List α → List α} {m : Nat}
    (hn : ∀ cs n, ∃ d, d ≤ 2 * (m + cs.length) ∧ next cs n = (.ok (next' cs), n + d)) : ∀ (cs : List α) (n : Nat),
    ∃ d, d ≤ 2 * (m + 1 + cs.length) ∧ walkInner (Ans lt) l r b a as next cs n = (.ok (Tree.walkInner lt l r b a as next' cs), n + d)
  | [], n => ⟨0, by omega, rfl⟩
  | c :: cs, n => by
    cases h1 : lt a c with
    | true =>
      obtain ⟨d, b1, e⟩ := hn (c :: cs) (n + 1)
      refine ⟨d + 1, by omega, ?_⟩
      rw [walkInner, mb (ask_ans _ _ _ _), h1, if_pos rfl, mb e, Tree.walkInner, h1, show n + 1 + d = n + (d + 1) by omega]; rfl
    | false =>
      cases h2 : lt c a with
      | true =>
        obtain ⟨d, b1, e⟩ := walkInner_ok l r b a as hn cs (n + 1 + 1)
        refine ⟨d + 2, by simp; omega, ?_⟩
        rw [walkInner, mb (ask_ans _ _ _ _), h1, if_neg (by simp), mb (ask_ans _ _ _ _), h2, if_pos rfl, mb e, Tree.walkInner, h1, h2,
          show n + 1 + 1 + d = n + (d + 2) by omega]; rfl
      | false =>
        obtain ⟨d, b1, e⟩ := hn cs (n + 1 + 1)
        refine ⟨d + 2, by simp; omega, ?_⟩
        rw [walkInner, mb (ask_ans _ _ _ _), h1, if_neg (by simp), mb (ask_ans _ _ _ _), h2, if_neg (by simp), mb e, Tree.walkInner, h1, h2,
          show n + 1 + 1 + d = n + (d + 2) by omega]; rfl

theorem walk_ok (l r b : Bool) : ∀ (as cs : List α) (n : Nat),
    ∃ d, d ≤ 2 * (as.length + cs.length) ∧ walk (Ans lt) l r b as cs n = (.ok (Tree.walk lt l r b as cs), n + d)
  | [], cs, n => ⟨0, by omega, rfl⟩
  | a :: as, cs, n => by
    obtain ⟨d, b1, e⟩ := walkInner_ok (lt := lt) l r b a as (walk_ok l r b as) cs n
    exact ⟨d, by simp; omega, e⟩

theorem walkInner_length (l r b : Bool) (a : α) (as : List α) {next : List α → List α} {m : Nat} (hm : as.length ≤ m)
    (hn : ∀ cs, (next cs).length ≤ m + cs.length) : ∀ cs : List α, (Tree.walkInner lt l r b a as next cs).length ≤ m + 1 + cs.length
  | [] => by unfold Tree.walkInner; split <;> simp; omega
  | c :: cs => by
    have h1 := hn (c :: cs)
    have h2 := hn cs
    have h3 := walkInner_length l r b a as hm hn cs
    rw [List.length_cons] at h1
    unfold Tree.walkInner
    repeat' split
    all_goals (simp only [List.length_cons]; omega)

theorem walk_length (l r b : Bool) : ∀ as cs : List α, (Tree.walk lt l r b as cs).length ≤ as.length + cs.length
  | [], cs => by unfold Tree.walk; split <;> simp
  | a :: as, cs => walkInner_length l r b a as (le_refl _) (walk_length l r b as) cs

theorem byKey_id : byKey id lt = lt := rfl

theorem setOp_ok (hB : B.Keeps) (W : StrictWeak lt) (l r b : Bool) {other : Option (List α)} {t : BT α} (hI : Increasing lt t.elems)
    (hO : ∀ o, other = some o → Increasing lt o) (n : Nat) :
    ∃ t' d, setOp (Ans lt) B l r b other t n = (.ok (t', ()), n + d) ∧ RB t' ∧
      t'.elems = Tree.insertAll lt (Tree.walk lt l r b t.elems (other.getD t.elems)) [] ∧
      Increasing lt t'.elems ∧ d ≤ 4 * (t.size + (other.getD t.elems).length) := by
  have hO' : Increasing lt (other.getD t.elems) := by
    cases other with
    | none => exact hI
    | some o => exact hO o rfl
  obtain ⟨d, b1, e⟩ := walk_ok (lt := lt) l r b t.elems (other.getD t.elems) n
  have hW := (Tree.walk_spec W l r b t.elems _ hI hO').2
  obtain ⟨t', d', e', h1, h2, b2⟩ := insertIter_ok (key := id) hB W (Tree.walk lt l r b t.elems (other.getD t.elems)) (rb_leaf (α := α)) hW (n + d)
  have hlen := walk_length (lt := lt) l r b t.elems (other.getD t.elems)
  refine ⟨t', d + d', ?_, h2, ?_, ?_, ?_⟩
  · rw [setOp, mb e]
    show (insertIter id (Ans lt) B _ (leaf : BT α).size leaf >>= _) _ = _
    rw [mb e', show n + d + d' = n + (d + d') by omega]; rfl
  · rw [h1, insertAll_walk W l r b _ _ hI hO']; rfl
  · rw [h1]; exact hW
  · unfold size; omega

/-- The calls of the comparator that a method of a set of `n` elements may make. -/
def setCost (n : Nat) : SOp α → Nat
  | .add _ => 2 * Nat.log 2 (n + 1) + 2
  | .remove _ => 4 * Nat.log 2 (n + 1)
  | .contains _ => 2 * Nat.log 2 (n + 1) + 1
  | .extend xs => xs.length * (2 * Nat.log 2 (n + xs.length + 1) + 3)
  | .inter o | .union o | .diff o | .symDiff o => 4 * (n + match o with | none => n | some o => o.length)
  | .pop | .min | .max | .size | .clear => 0

/-- The operands of the set operations are sets. -/
def SetArg (lt : α → α → Bool) : SOp α → Prop
  | .inter o | .union o | .diff o | .symDiff o => ∀ t, o = some t → Increasing lt t
  | _ => True

theorem getD_length (o : Option (List α)) (L : List α) : (o.getD L).length = match o with | none => L.length | some o => o.length := by
  cases o <;> rfl

theorem lift_run {σ β : Type} (r : Res β) (s : σ) : (Meth.lift r : Meth σ β) s = (r, s) := rfl

theorem get_b {σ γ : Type} {f : σ → Meth σ γ} (s : σ) : ((Meth.get : Meth σ σ) >>= f) s = f s s := rfl

theorem set_b {σ γ : Type} {f : Unit → Meth σ γ} (s s' : σ) : ((Meth.set s' : Meth σ Unit) >>= f) s = f () s' := rfl

theorem throw_b {σ β γ : Type} {p : Meth σ β} {f : β → Meth σ γ} {s s' : σ} {m : String} (h : p s = (.throw m, s')) : (p >>= f) s = (.throw m, s') := by
  show Meth.bind p f s = _
  rw [Meth.bind, h]

theorem lift_b {σ β γ : Type} {r : Res β} {f : β → Meth σ γ} {b : β} (s : σ) (h : r = .ok b) : ((Meth.lift r : Meth σ β) >>= f) s = f b s := by
  rw [h]; rfl

theorem lift_t {σ β γ : Type} {r : Res β} {f : β → Meth σ γ} {m : String} (s : σ) (h : r = .throw m) :
    ((Meth.lift r : Meth σ β) >>= f) s = (.throw m, s) := by
  rw [h]; rfl

/-- A step of the tree does what a step of the sorted list does. -/
structure Sim {ρ : Type} (lt : α → α → Bool) (cost : Nat) (n : Nat) (out : ρ × List α) (got : ρ × BT α × Nat) : Prop where
  res : got.1 = out.1
  elems : got.2.1.elems = out.2
  rb : RB got.2.1
  inc : Increasing lt got.2.1.elems
  low : n ≤ got.2.2
  cost : got.2.2 ≤ n + cost

theorem pop_sim (hB : B.Keeps) {t : BT α} (hI : Increasing lt t.elems) (hne : t.elems.length ≠ 0) :
    (B.del t 0).elems = t.elems.drop 1 ∧ RB (B.del t 0) ∧ Increasing lt (B.del t 0).elems := by
  obtain ⟨h1, h2⟩ := hB.del t 0 (by unfold size; omega)
  rw [List.eraseIdx_zero, ← List.drop_one] at h1
  exact ⟨h1, h2, by rw [h1]; exact List.Pairwise.sublist (List.drop_sublist _ _) hI⟩

theorem set_sim (hB : B.Keeps) (W : StrictWeak lt) (op : SOp α) (hop : SetArg lt op) {t : BT α} (hR : RB t) (hI : Increasing lt t.elems) (n : Nat) :
    Sim lt (setCost t.size op) n (op.step lt t.elems) (setStep (Ans lt) B op (t, n)) := by
  have hh := height_le hR
  cases op with
  | add e =>
    rw [setStep, get_b]
    by_cases hq : PSet.size t.elems ≥ INT_MAX
    · have hc : checkFull (PSet.size t.elems) INT_MAX = .throw "Error: The container has reached the maximum size." := if_pos hq
      have ho : SOp.step lt (.add e) t.elems = (.throw "Error: The container has reached the maximum size.", t.elems) := by
        rw [SOp.step]
        refine throw_b ?_
        rw [PSet.add, get_b, lift_t _ hc]
      rw [lift_t _ hc, ho]
      exact ⟨rfl, rfl, hR, hI, le_refl _, Nat.le_add_right _ _⟩
    · have hc : checkFull (PSet.size t.elems) INT_MAX = .ok () := if_neg hq
      have ho : SOp.step lt (.add e) t.elems = (.ok (.bool (Tree.insert lt e t.elems).2), (Tree.insert lt e t.elems).1) := by
        rw [SOp.step, sb (s' := (Tree.insert lt e t.elems).1) (b := (Tree.insert lt e t.elems).2)]
        · rfl
        · rw [PSet.add, get_b, lift_b _ hc]; rfl
      obtain ⟨t', d, b, e1, e2, r⟩ := insert_ok (key := id) hB W e hR hI n
      rw [lift_b _ hc, sb (onTree_ok e1), ho]
      exact ⟨rfl, e2, r, by show Increasing lt t'.elems; rw [e2]; exact (Tree.insert_mem W e t.elems hI).2.2.1, by show n ≤ n + d; omega, by show n + d ≤ n + (2 * _ + 2); omega⟩
  | remove e =>
    obtain ⟨t', d, b, e1, e2, r, i⟩ := erase_ok (key := id) hB W e hR hI n
    rw [setStep, sb (onTree_ok e1)]
    rw [eraseK_id] at e2
    refine ⟨?_, e2, r, i, by show n ≤ n + d; omega, by show n + d ≤ n + (4 * _); omega⟩
    rw [eraseK_id]; rfl
  | pop =>
    rw [setStep, get_b]
    by_cases hq : PSet.size t.elems = 0
    · have hc : checkEmpty (PSet.size t.elems) = .throw "Error: The container is empty." := if_pos hq
      have ho : SOp.step lt .pop t.elems = (.throw "Error: The container is empty.", t.elems) := by
        rw [SOp.step]
        refine throw_b ?_
        rw [PSet.pop, get_b, lift_t _ hc]
      rw [lift_t _ hc, ho]
      exact ⟨rfl, rfl, hR, hI, le_refl _, Nat.le_add_right _ _⟩
    · have hc : checkEmpty (PSet.size t.elems) = .ok () := if_neg hq
      have h0 : t.elems.length ≠ 0 := fun h0 => hq (by unfold PSet.size; rw [h0]; rfl)
      obtain ⟨x, hx⟩ := get_some (t := t) (j := 0) (by unfold size; omega)
      have hb : PSet.stdBegin t.elems = .ok x := by unfold PSet.stdBegin; rw [if_neg h0]; simp [vget, hx]
      have ho : SOp.step lt .pop t.elems = (.ok (.elem x), t.elems.drop 1) := by
        rw [SOp.step, sb (s' := t.elems.drop 1) (b := x)]
        · rfl
        · rw [PSet.pop, get_b, lift_b _ hc, lift_b _ hb]; rfl
      obtain ⟨p1, p2, p3⟩ := pop_sim (lt := lt) hB hI h0
      rw [lift_b _ hc, lift_b _ hb, ho]
      exact ⟨rfl, p1, p2, p3, le_refl _, Nat.le_add_right _ _⟩
  | min =>
    rw [setStep, get_b]
    show Sim lt _ n ((Meth.get >>= fun s => _) _) _
    rw [get_b]
    refine ⟨?_, ?_, ?_, ?_, ?_, ?_⟩ <;> dsimp only <;> cases PSet.min t.elems <;> first | rfl | exact hR | exact hI
  | max =>
    rw [setStep, get_b]
    show Sim lt _ n ((Meth.get >>= fun s => _) _) _
    rw [get_b]
    refine ⟨?_, ?_, ?_, ?_, ?_, ?_⟩ <;> dsimp only <;> cases PSet.max t.elems <;> first | rfl | exact hR | exact hI
  | contains e =>
    obtain ⟨d, b, e1, e2⟩ := find_ok (key := id) W e hI n
    rw [setStep, get_b, sb (onTree_ok (by rw [mb e1]; rfl))]
    refine ⟨?_, rfl, hR, hI, by show n ≤ n + d; omega, by show n + d ≤ n + (2 * _ + 1); omega⟩
    show Res.ok (SRet.bool _) = Res.ok (SRet.bool (PSet.contains lt t.elems e))
    rw [PSet.contains, PSet.find, ← findK_id]
    cases hf : findK id lt e t.elems with
    | none => simp
    | some j =>
      have := e2 j hf
      have hne : (j != t.size) = true := by simp; omega
      show Res.ok (SRet.bool (j != t.size)) = _
      rw [hne]; rfl
  | size => exact ⟨rfl, rfl, hR, hI, le_refl _, le_refl _⟩
  | extend xs =>
    obtain ⟨t', d, e1, e2, r, b, -⟩ := insertRange_ok (key := id) hB W xs hR hI n
    rw [setStep, sb (onTree_ok (by rw [mb e1]; rfl))]
    exact ⟨rfl, e2, r, by show Increasing lt t'.elems; rw [e2]; exact (Tree.insertAll_spec W xs t.elems hI).1, by show n ≤ n + d; omega, by show n + d ≤ n + _; exact Nat.add_le_add_left b n⟩
  | clear => exact ⟨rfl, rfl, rb_leaf, List.Pairwise.nil, le_refl _, le_refl _⟩
  | inter o =>
    obtain ⟨t', d, e1, r, e2, i, b⟩ := setOp_ok hB W false false true hI hop n
    rw [setStep, sb (onTree_ok e1)]
    exact ⟨rfl, e2, r, i, by show n ≤ n + d; omega, by rw [getD_length] at b; exact Nat.add_le_add_left b n⟩
  | union o =>
    obtain ⟨t', d, e1, r, e2, i, b⟩ := setOp_ok hB W true true true hI hop n
    rw [setStep, sb (onTree_ok e1)]
    exact ⟨rfl, e2, r, i, by show n ≤ n + d; omega, by rw [getD_length] at b; exact Nat.add_le_add_left b n⟩
  | diff o =>
    obtain ⟨t', d, e1, r, e2, i, b⟩ := setOp_ok hB W true false false hI hop n
    rw [setStep, sb (onTree_ok e1)]
    exact ⟨rfl, e2, r, i, by show n ≤ n + d; omega, by rw [getD_length] at b; exact Nat.add_le_add_left b n⟩
  | symDiff o =>
    obtain ⟨t', d, e1, r, e2, i, b⟩ := setOp_ok hB W true true false hI hop n
    rw [setStep, sb (onTree_ok e1)]
    exact ⟨rfl, e2, r, i, by show n ≤ n + d; omega, by rw [getD_length] at b; exact Nat.add_le_add_left b n⟩

/-- The calls that a history may make, going by the sizes of the sorted lists. -/
def setBudget (lt : α → α → Bool) : List (SOp α) → List α → Nat
  | [], _ => 0
  | op :: ops, s => setCost s.length op + setBudget lt ops (op.step lt s).2

theorem setRun_sim (hB : B.Keeps) (W : StrictWeak lt) : ∀ (ops : List (SOp α)), (∀ op ∈ ops, SetArg lt op) → ∀ {t : BT α}, RB t →
    Increasing lt t.elems → ∀ n, Sim lt (setBudget lt ops t.elems) n (SOp.run lt ops t.elems) (setRun (Ans lt) B ops (t, n))
  | [], _, t, hR, hI, n => ⟨rfl, rfl, hR, hI, le_refl _, le_refl _⟩
  | op :: ops, hops, t, hR, hI, n => by
    have h := set_sim hB W op (hops op (by simp)) hR hI n
    generalize hg : setStep (Ans lt) B op (t, n) = got at h
    generalize ho : op.step lt t.elems = out at h
    obtain ⟨r, t', n'⟩ := got
    obtain ⟨r', L⟩ := out
    obtain ⟨h1, h2, h3, h4, h5, h6⟩ := h
    dsimp only at h1 h2 h3 h4 h5 h6
    subst h1
    have ih := setRun_sim hB W ops (fun o ho => hops o (by simp [ho])) h3 h4 n'
    rw [h2] at ih
    obtain ⟨i1, i2, i3, i4, i5, i6⟩ := ih
    have hz : setCost t.size op = setCost t.elems.length op := rfl
    rw [SOp.run, setRun, setBudget, hg, ho]
    cases r with
    | ok r => exact ⟨by dsimp only; rw [i1], i2, i3, i4, by dsimp only; omega, by dsimp only; omega⟩
    | throw m => exact ⟨by dsimp only; rw [i1], i2, i3, i4, by dsimp only; omega, by dsimp only; omega⟩
    | ub u => exact ⟨rfl, h2, h3, h4, h5, by dsimp only; omega⟩
    | fuel => exact ⟨rfl, h2, h3, h4, h5, by dsimp only; omega⟩

end set
end BT
end Pyincpp
