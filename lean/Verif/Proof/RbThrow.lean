import Verif.Model.RbThrow
import Verif.Proof.RbDict

/-! # The trees under `std::set` and `std::map`, with a comparator that throws -/

namespace Pyincpp
namespace BT

/-- The comparator answers as `c`, or throws. -/
def Agrees {κ : Type} (cmp : κ → κ → Res Bool) (c : κ → κ → Bool) : Prop := ∀ a b, cmp a b = .ok (c a b) ∨ ∃ m, cmp a b = .throw m

/-- `p` does what `q` does, or throws what the comparator threw and leaves the part `st` of the state. -/
def Ref {κ σ β ρ : Type} (cmp : κ → κ → Res Bool) (st : σ → ρ) (p q : Meth σ β) : Prop :=
  ∀ s, p s = q s ∨ ∃ a b m s', cmp a b = .throw m ∧ p s = (.throw m, s') ∧ st s' = st s

section
variable {κ σ β γ ρ : Type} {cmp : κ → κ → Res Bool} {c : κ → κ → Bool} {st : σ → ρ}

theorem Ref.refl (p : Meth σ β) : Ref cmp st p p := fun _ => Or.inl rfl

/-- Nothing is kept track of. -/
theorem Ref.bind {p q : Meth σ β} {f g : β → Meth σ γ} (h : Ref cmp st p q) (hq : ∀ s, st (q s).2 = st s) (hf : ∀ b, Ref cmp st (f b) (g b)) :
    Ref cmp st (p >>= f) (q >>= g) := by
  intro s
  rcases h s with h | ⟨a, b, m, s', h1, h2, h3⟩
  · have hs := hq s
    show Meth.bind p f s = Meth.bind q g s ∨ ∃ a b m s', _ ∧ Meth.bind p f s = _ ∧ _
    unfold Meth.bind
    rw [h]
    generalize q s = r at hs
    obtain ⟨r, s1⟩ := r
    cases r with
    | ok b =>
      rcases hf b s1 with h | ⟨a', b', m, s', h1, h2, h3⟩
      · exact Or.inl h
      · exact Or.inr ⟨a', b', m, s', h1, h2, h3.trans hs⟩
    | throw m => exact Or.inl rfl
    | ub u => exact Or.inl rfl
    | fuel => exact Or.inl rfl
  · exact Or.inr ⟨a, b, m, s', h1, by show Meth.bind p f s = _; unfold Meth.bind; rw [h2], h3⟩

theorem Ref.ite {p q p' q' : Meth σ β} {x : Prop} [Decidable x] (h : Ref cmp st p q) (h' : Ref cmp st p' q') :
    Ref cmp st (if x then p else p') (if x then q else q') := by
  split
  · exact h
  · exact h'

end

section
variable {α κ : Type} {key : α → κ} {cmp : κ → κ → Res Bool} {c : κ → κ → Bool} {B : Balancer α}

/-- On the number of calls nothing is claimed. -/
abbrev RefN {β : Type} (cmp : κ → κ → Res Bool) (p q : Meth Nat β) : Prop := Ref cmp (fun _ : Nat => ()) p q

theorem RefN.bind {β γ : Type} {p q : Meth Nat β} {f g : β → Meth Nat γ} (h : RefN cmp p q) (hf : ∀ b, RefN cmp (f b) (g b)) :
    RefN cmp (p >>= f) (q >>= g) := Ref.bind h (fun _ => rfl) hf

theorem ask_ref (hc : Agrees cmp c) (a b : κ) : RefN cmp (ask cmp a b) (ask (Ans c) a b) := by
  intro n
  rcases hc a b with h | ⟨m, h⟩
  · exact Or.inl (by rw [ask, h]; rfl)
  · exact Or.inr ⟨a, b, m, n + 1, h, by rw [ask, h], rfl⟩

theorem bound_ref {go go' : κ → Meth Nat Bool} (h : ∀ x, RefN cmp (go x) (go' x)) : ∀ (t : BT α) (off y : Nat),
    RefN cmp (bound key go t off y) (bound key go' t off y)
  | leaf, _, _ => Ref.refl _
  | node _ l x r, off, y => by
    rw [bound, bound]
    exact RefN.bind (h _) fun b => Ref.ite (bound_ref h r _ _) (bound_ref h l _ _)

theorem lowerBound_ref (hc : Agrees cmp c) (k : κ) (t : BT α) (off y : Nat) : RefN cmp (lowerBound key cmp k t off y) (lowerBound key (Ans c) k t off y) :=
  bound_ref (fun x => ask_ref hc x k) t off y

theorem upperBound_ref (hc : Agrees cmp c) (k : κ) (t : BT α) (off y : Nat) : RefN cmp (upperBound key cmp k t off y) (upperBound key (Ans c) k t off y) :=
  bound_ref (fun x => RefN.bind (ask_ref hc k x) fun _ => Ref.refl _) t off y

theorem find_ref (hc : Agrees cmp c) (k : κ) (t : BT α) : RefN cmp (find key cmp k t) (find key (Ans c) k t) := by
  rw [find, find]
  exact RefN.bind (lowerBound_ref hc k t _ _) fun j => Ref.ite (Ref.refl _) (RefN.bind (Ref.refl _) fun x => RefN.bind (ask_ref hc _ _) fun b => Ref.refl _)

theorem equalRange_ref (hc : Agrees cmp c) (k : κ) : ∀ (t : BT α) (off y : Nat), RefN cmp (equalRange key cmp k t off y) (equalRange key (Ans c) k t off y)
  | leaf, _, _ => Ref.refl _
  | node _ l x r, off, y => by
    rw [equalRange, equalRange]
    refine RefN.bind (ask_ref hc _ _) fun b => Ref.ite (equalRange_ref hc k r _ _) (RefN.bind (ask_ref hc _ _) fun b => Ref.ite (equalRange_ref hc k l _ _) ?_)
    exact RefN.bind (lowerBound_ref hc k l _ _) fun lo => RefN.bind (upperBound_ref hc k r _ _) fun hi => Ref.refl _

theorem erase_ref (hc : Agrees cmp c) (k : κ) (t : BT α) : RefN cmp (erase key cmp B k t) (erase key (Ans c) B k t) := by
  rw [erase, erase]
  exact RefN.bind (equalRange_ref hc k t _ _) fun p => Ref.refl _

theorem descend_ref (hc : Agrees cmp c) (k : κ) : ∀ (t : BT α) (off y : Nat) (comp : Bool),
    RefN cmp (descend key cmp k t off y comp) (descend key (Ans c) k t off y comp)
  | leaf, _, _, _ => Ref.refl _
  | node _ l x r, off, y, comp => by
    rw [descend, descend]
    exact RefN.bind (ask_ref hc _ _) fun b => Ref.ite (descend_ref hc k l _ _ _) (descend_ref hc k r _ _ _)

theorem uniquePos_ref (hc : Agrees cmp c) (k : κ) (t : BT α) : RefN cmp (uniquePos key cmp k t) (uniquePos key (Ans c) k t) := by
  rw [uniquePos, uniquePos]
  exact RefN.bind (descend_ref hc k t _ _ _) fun p => Ref.ite (Ref.refl _) (RefN.bind (Ref.refl _) fun x => RefN.bind (ask_ref hc _ _) fun b => Ref.refl _)

theorem hintPos_ref (hc : Agrees cmp c) (pos : Nat) (k : κ) (t : BT α) : RefN cmp (hintPos key cmp pos k t) (hintPos key (Ans c) pos k t) := by
  have U := uniquePos_ref (key := key) hc k t
  rw [hintPos, hintPos]
  refine Ref.ite (Ref.ite (RefN.bind (Ref.refl _) fun x => RefN.bind (ask_ref hc _ _) fun b => Ref.ite (Ref.refl _) U) U)
    (RefN.bind (Ref.refl _) fun p => RefN.bind (ask_ref hc _ _) fun b => Ref.ite (Ref.ite (Ref.refl _) (RefN.bind (Ref.refl _) fun x =>
      RefN.bind (ask_ref hc _ _) fun b => Ref.ite (Ref.refl _) U)) (RefN.bind (ask_ref hc _ _) fun b => Ref.ite (Ref.ite (Ref.refl _)
        (RefN.bind (Ref.refl _) fun x => RefN.bind (ask_ref hc _ _) fun b => Ref.ite (Ref.refl _) U)) (Ref.refl _)))

theorem link_ref (hc : Agrees cmp c) (v : α) (first : Bool) (y : Nat) (t : BT α) : RefN cmp (link key cmp B v first y t) (link key (Ans c) B v first y t) := by
  rw [link, link]
  exact Ref.ite (Ref.refl _) (RefN.bind (Ref.ite (Ref.refl _) (RefN.bind (Ref.refl _) fun x => ask_ref hc _ _)) fun left => Ref.refl _)

theorem insert_ref (hc : Agrees cmp c) (v : α) (t : BT α) : RefN cmp (insert key cmp B v t) (insert key (Ans c) B v t) := by
  rw [insert, insert]
  refine RefN.bind (uniquePos_ref hc _ t) fun p => ?_
  cases p with
  | there j => exact Ref.refl _
  | below first y => exact RefN.bind (link_ref hc v first y t) fun _ => Ref.refl _

theorem insertHint_ref (hc : Agrees cmp c) (pos : Nat) (v : α) (t : BT α) : RefN cmp (insertHint key cmp B pos v t) (insertHint key (Ans c) B pos v t) := by
  rw [insertHint, insertHint]
  refine RefN.bind (hintPos_ref hc _ _ t) fun p => ?_
  cases p with
  | there j => exact Ref.refl _
  | below first y => exact link_ref hc v first y t

theorem insertIter_ref (hc : Agrees cmp c) : ∀ (xs : List α) (pos : Nat) (t : BT α), RefN cmp (insertIter key cmp B xs pos t) (insertIter key (Ans c) B xs pos t)
  | [], _, _ => Ref.refl _
  | x :: xs, pos, t => by
    rw [insertIter, insertIter]
    exact RefN.bind (insertHint_ref hc pos x t) fun p => insertIter_ref hc xs _ _

theorem onTree_ref {β : Type} {f g : BT α → Meth Nat (BT α × β)} (h : ∀ t, RefN cmp (f t) (g t)) : Ref cmp (fun s : BT α × Nat => s.1) (onTree f) (onTree g) := by
  intro s
  rcases h s.1 s.2 with h | ⟨a, b, m, n', h1, h2, -⟩
  · exact Or.inl (by unfold onTree; rw [h])
  · exact Or.inr ⟨a, b, m, (s.1, n'), h1, by unfold onTree; rw [h2], rfl⟩

end

section set
variable {α : Type} {cmp : α → α → Res Bool} {c : α → α → Bool} {B : Balancer α}

theorem walkInner_ref (hc : Agrees cmp c) (l r b : Bool) (a : α) (as : List α) {next next' : List α → Meth Nat (List α)}
    (h : ∀ cs, RefN cmp (next cs) (next' cs)) : ∀ cs, RefN cmp (walkInner cmp l r b a as next cs) (walkInner (Ans c) l r b a as next' cs)
  | [] => Ref.refl _
  | x :: cs => by
    rw [walkInner, walkInner]
    exact RefN.bind (ask_ref hc _ _) fun _ => Ref.ite (RefN.bind (h _) fun _ => Ref.refl _) (RefN.bind (ask_ref hc _ _) fun _ =>
      Ref.ite (RefN.bind (walkInner_ref hc l r b a as h cs) fun _ => Ref.refl _) (RefN.bind (h _) fun _ => Ref.refl _))

theorem walk_ref (hc : Agrees cmp c) (l r b : Bool) : ∀ as cs, RefN cmp (walk cmp l r b as cs) (walk (Ans c) l r b as cs)
  | [], _ => Ref.refl _
  | a :: as, cs => walkInner_ref hc l r b a as (walk_ref hc l r b as) cs

theorem setOp_ref (hc : Agrees cmp c) (l r b : Bool) (o : Option (List α)) (t : BT α) : RefN cmp (setOp cmp B l r b o t) (setOp (Ans c) B l r b o t) := by
  rw [setOp, setOp]
  exact RefN.bind (walk_ref hc l r b _ _) fun xs => RefN.bind (insertIter_ref hc xs _ _) fun _ => Ref.refl _

/-- `p` is followed by nothing that asks. -/
theorem Ref.last {κ σ β γ ρ : Type} {cmp : κ → κ → Res Bool} {st : σ → ρ} {p q : Meth σ β} (f : β → Meth σ γ) (h : Ref cmp st p q) :
    Ref cmp st (p >>= f) (q >>= f) := by
  intro s
  rcases h s with h | ⟨a, b, m, s', h1, h2, h3⟩
  · left
    show Meth.bind p f s = Meth.bind q f s
    unfold Meth.bind
    rw [h]
  · exact Or.inr ⟨a, b, m, s', h1, by show Meth.bind p f s = _; unfold Meth.bind; rw [h2], h3⟩

theorem setStep_ref (hc : Agrees cmp c) (op : SOp α) (hop : ∀ xs, op ≠ .extend xs) :
    Ref cmp (fun s : BT α × Nat => s.1) (setStep cmp B op) (setStep (Ans c) B op) := by
  cases op with
  | add e =>
    rw [setStep, setStep]
    exact Ref.bind (Ref.refl _) (fun _ => rfl) fun s => Ref.bind (Ref.refl _) (fun _ => rfl) fun _ => Ref.last _ (onTree_ref (insert_ref hc e))
  | remove e =>
    rw [setStep, setStep]
    exact Ref.last _ (onTree_ref (erase_ref hc e))
  | contains e =>
    rw [setStep, setStep]
    exact Ref.bind (Ref.refl _) (fun _ => rfl) fun s => Ref.last _ (onTree_ref fun t => RefN.bind (find_ref hc e t) fun _ => Ref.refl _)
  | extend xs => exact absurd rfl (hop xs)
  | pop => exact Ref.refl _
  | min => exact Ref.refl _
  | max => exact Ref.refl _
  | size => exact Ref.refl _
  | clear => exact Ref.refl _
  | inter o => rw [setStep, setStep]; exact Ref.last _ (onTree_ref (setOp_ref hc _ _ _ o))
  | union o => rw [setStep, setStep]; exact Ref.last _ (onTree_ref (setOp_ref hc _ _ _ o))
  | diff o => rw [setStep, setStep]; exact Ref.last _ (onTree_ref (setOp_ref hc _ _ _ o))
  | symDiff o => rw [setStep, setStep]; exact Ref.last _ (onTree_ref (setOp_ref hc _ _ _ o))

end set

section dict
variable {K V : Type} {cmp : K → K → Res Bool} {c : K → K → Bool} {B : Balancer (K × V)}

theorem findS_ref (hc : Agrees cmp c) (k : K) : Ref cmp (fun s : BT (K × V) × Nat => s.1) (onTree (fun t => do pure (t, ← find Prod.fst cmp k t)))
    (onTree (fun t => do pure (t, ← find Prod.fst (Ans c) k t))) :=
  onTree_ref fun t => RefN.bind (find_ref hc k t) fun _ => Ref.refl _

theorem refAt_ref (hc : Agrees cmp c) (k : K) : Ref cmp (fun s : BT (K × V) × Nat => s.1) (refAt cmp k) (refAt (Ans c) k) := by
  rw [refAt, refAt]
  exact Ref.bind (Ref.refl _) (fun _ => rfl) fun s => Ref.last _ (findS_ref hc k)

theorem getVal_ref (hc : Agrees cmp c) (k : K) : Ref cmp (fun s : BT (K × V) × Nat => s.1) (getVal cmp k) (getVal (Ans c) k) := by
  rw [getVal, getVal]
  exact Ref.last _ (refAt_ref hc k)

theorem hasKey_ref (hc : Agrees cmp c) (k : K) : Ref cmp (fun s : BT (K × V) × Nat => s.1) (hasKey cmp k) (hasKey (Ans c) k) := by
  rw [hasKey, hasKey]
  exact Ref.bind (Ref.refl _) (fun _ => rfl) fun s => Ref.last _ (findS_ref hc k)

theorem onTree_fst {β : Type} (f : BT (K × V) → Meth Nat β) (s : BT (K × V) × Nat) : (onTree (fun t => do pure (t, ← f t)) s).2.1 = s.1 := by
  rcases hf : f s.1 s.2 with ⟨r, n⟩
  cases r with
  | ok b => rw [show s = (s.1, s.2) from rfl, onTree_ok (t' := s.1) (b := b) (n' := n) (by rw [mb hf]; rfl)]
  | throw m =>
    unfold onTree
    dsimp only
    rw [throw_b hf]
  | ub u =>
    have : (do let b ← f s.1; pure (s.1, b) : Meth Nat (BT (K × V) × β)) s.2 = (.ub u, n) := by
      show Meth.bind _ _ _ = _
      rw [Meth.bind, hf]
    unfold onTree
    dsimp only
    rw [this]
  | fuel =>
    have : (do let b ← f s.1; pure (s.1, b) : Meth Nat (BT (K × V) × β)) s.2 = (.fuel, n) := by
      show Meth.bind _ _ _ = _
      rw [Meth.bind, hf]
    unfold onTree
    dsimp only
    rw [this]

theorem hasKey_fst (k : K) (s : BT (K × V) × Nat) : (hasKey cmp k s).2.1 = s.1 := by
  have h := onTree_fst (fun t => find Prod.fst cmp k t) s
  rw [hasKey, get_b]
  show (Meth.bind _ _ s).2.1 = _
  unfold Meth.bind
  generalize onTree (fun t => do pure (t, ← find Prod.fst cmp k t)) s = r at h ⊢
  obtain ⟨r, s'⟩ := r
  cases r <;> exact h

theorem dictStep_ref (hc : Agrees cmp c) (op : MOp K V) (hop : ∀ xs, op ≠ .extend xs) :
    Ref cmp (fun s : BT (K × V) × Nat => s.1) (dictStep cmp B op) (dictStep (Ans c) B op) := by
  cases op with
  | add k v =>
    rw [dictStep, dictStep]
    exact Ref.bind (Ref.refl _) (fun _ => rfl) fun s => Ref.bind (Ref.refl _) (fun _ => rfl) fun _ => Ref.last _ (onTree_ref (insert_ref hc (k, v)))
  | remove k =>
    rw [dictStep, dictStep]
    exact Ref.last _ (onTree_ref (erase_ref hc k))
  | assign k v => rw [dictStep, dictStep]; exact Ref.last _ (refAt_ref hc k)
  | get k => rw [dictStep, dictStep]; exact Ref.last _ (getVal_ref hc k)
  | getOr k v =>
    rw [dictStep, dictStep]
    exact Ref.bind (hasKey_ref hc k) (hasKey_fst k) fun b => Ref.ite (Ref.last _ (getVal_ref hc k)) (Ref.refl _)
  | contains k => rw [dictStep, dictStep]; exact Ref.last _ (hasKey_ref hc k)
  | pop => exact Ref.refl _
  | size => exact Ref.refl _
  | extend xs => exact absurd rfl (hop xs)
  | clear => exact Ref.refl _

end dict

section main
variable {α κ : Type} {key : α → κ} {cmp : κ → κ → Res Bool} {c : κ → κ → Bool} {B : Balancer α}

/-- The outcome is that of the comparator when it threw. -/
def Threw {β : Type} (cmp : κ → κ → Res Bool) (r : Res β) : Prop := ∃ a b m, cmp a b = .throw m ∧ r = .throw m

theorem extendS_ok (hB : B.Keeps) (W : StrictWeak c) (hc : Agrees cmp c) : ∀ (xs : List α) (s : BT α × Nat), RB s.1 → Increasing (byKey key c) s.1.elems →
    RB (extendS key cmp B xs s).2.1 ∧ Increasing (byKey key c) (extendS key cmp B xs s).2.1.elems ∧
    (((extendS key cmp B xs s).1 = .ok () ∧ (extendS key cmp B xs s).2.1.elems = Tree.insertAll (byKey key c) xs s.1.elems) ∨
     (Threw cmp (extendS key cmp B xs s).1 ∧ ∃ i, i < xs.length ∧ (extendS key cmp B xs s).2.1.elems = Tree.insertAll (byKey key c) (xs.take i) s.1.elems))
  | [], s, hR, hI => ⟨hR, hI, Or.inl ⟨rfl, rfl⟩⟩
  | x :: xs, (t, n), hR, hI => by
    obtain ⟨t', j, d, -, -, -, e, h1, h2, -⟩ := insertHint_ok hB W t.size x (le_refl _) hR hI n
    have hI' : Increasing (byKey key c) t'.elems := by rw [h1]; exact (Tree.insert_mem (byKey_weak W) x t.elems hI).2.2.1
    rw [extendS, get_b]
    rcases onTree_ref (fun t' : BT α => insertHint_ref (key := key) (B := B) hc t.size x t') (t, n) with h | ⟨a, b, m, s', g1, g2, g3⟩
    · rw [onTree_ok e] at h
      rw [sb h]
      obtain ⟨i1, i2, i3⟩ := extendS_ok hB W hc xs (t', n + d) h2 hI'
      refine ⟨i1, i2, ?_⟩
      dsimp only at i3
      rw [h1] at i3
      rcases i3 with i3 | ⟨i3, i, i4, i5⟩
      · exact Or.inl i3
      · exact Or.inr ⟨i3, i + 1, by simp; omega, i5⟩
    · rw [throw_b g2]
      dsimp only at g3
      refine ⟨by rw [g3]; exact hR, by rw [g3]; exact hI, Or.inr ⟨⟨a, b, m, g1, rfl⟩, 0, by simp, ?_⟩⟩
      rw [g3]; rfl

end main

section setT
variable {α : Type} {cmp : α → α → Res Bool} {lt : α → α → Bool} {B : Balancer α}

/-- What a step may do when the comparator may throw. -/
structure StepT (cmp : α → α → Res Bool) (lt : α → α → Bool) (op : SOp α) (L : List α) (got : Res (SRet α) × BT α × Nat) : Prop where
  rb : RB got.2.1
  inc : Increasing lt got.2.1.elems
  out : (got.1, got.2.1.elems) = op.step lt L ∨
    (Threw cmp got.1 ∧ (got.2.1.elems = L ∨ ∃ xs i, op = .extend xs ∧ i < xs.length ∧ got.2.1.elems = Tree.insertAll lt (xs.take i) L))

theorem setStepT_ok (hB : B.Keeps) (W : StrictWeak lt) (hc : Agrees cmp lt) (op : SOp α) (hop : SetArg lt op) {t : BT α} (hR : RB t)
    (hI : Increasing lt t.elems) (n : Nat) : StepT cmp lt op t.elems (setStepT cmp B op (t, n)) := by
  by_cases hx : ∃ xs, op = .extend xs
  · obtain ⟨xs, rfl⟩ := hx
    obtain ⟨i1, i2, i3⟩ := extendS_ok (key := id) hB W hc xs (t, n) hR hI
    rw [setStepT]
    rcases hr : extendS id cmp B xs (t, n) with ⟨r, s'⟩
    rw [hr] at i1 i2 i3
    rcases i3 with ⟨i3, i4⟩ | ⟨⟨a, b, m, g, i3⟩, i, i4, i5⟩
    · dsimp only at i3
      subst i3
      rw [sb hr]
      refine ⟨i1, i2, Or.inl ?_⟩
      show (Res.ok SRet.unit, s'.1.elems) = _
      rw [i4]; rfl
    · dsimp only at i3
      subst i3
      rw [throw_b hr]
      exact ⟨i1, i2, Or.inr ⟨⟨a, b, m, g, rfl⟩, Or.inr ⟨xs, i, rfl, i4, i5⟩⟩⟩
  · have hne : ∀ xs, op ≠ .extend xs := fun xs h => hx ⟨xs, h⟩
    have e : setStepT cmp B op = setStep cmp B op := by
      cases op <;> first | rfl | exact absurd rfl (hne _)
    have S := set_sim hB W op hop hR hI n
    rw [e]
    rcases setStep_ref (B := B) hc op hne (t, n) with h | ⟨a, b, m, s', g1, g2, g3⟩
    · rw [h]
      exact ⟨S.rb, S.inc, Or.inl (Prod.ext S.res S.elems)⟩
    · rw [g2]
      dsimp only at g3
      exact ⟨by rw [g3]; exact hR, by rw [g3]; exact hI, Or.inr ⟨⟨a, b, m, g1, rfl⟩, Or.inl (by rw [g3])⟩⟩

theorem size_nil : PSet.size ([] : List α) = 0 := by simp [PSet.size, wrap32]

/-- No method of `Set` is undefined. -/
theorem set_noUb (op : SOp α) (L : List α) : (∃ r, (op.step lt L).1 = .ok r) ∨ ∃ m, (op.step lt L).1 = .throw m := by
  have hmin : (∃ x, PSet.min L = .ok x) ∨ ∃ m, PSet.min L = .throw m := by
    unfold PSet.min checkEmpty
    by_cases hq : PSet.size L = 0
    · exact Or.inr ⟨_, by rw [if_pos hq]; rfl⟩
    · cases L with
      | nil => exact absurd size_nil hq
      | cons x L => exact Or.inl ⟨x, by rw [if_neg hq]; rfl⟩
  have hmax : (∃ x, PSet.max L = .ok x) ∨ ∃ m, PSet.max L = .throw m := by
    unfold PSet.max checkEmpty
    by_cases hq : PSet.size L = 0
    · exact Or.inr ⟨_, by rw [if_pos hq]; rfl⟩
    · by_cases h0 : L.length = 0
      · rw [List.length_eq_zero_iff] at h0
        subst h0
        exact absurd size_nil hq
      · refine Or.inl ⟨L[L.length - 1]'(by omega), ?_⟩
        rw [if_neg hq]
        show PSet.stdRbegin L = _
        unfold PSet.stdRbegin
        rw [if_neg h0]
        simp [vget, List.getElem?_eq_getElem (by omega : L.length - 1 < L.length)]
  cases op with
  | add e =>
    rw [SOp.step]
    by_cases hq : PSet.size L ≥ INT_MAX
    · exact Or.inr ⟨_, by rw [throw_b (by rw [PSet.add, get_b, lift_t _ (show checkFull (PSet.size L) INT_MAX = _ from if_pos hq)])]⟩
    · refine Or.inl ⟨.bool (Tree.insert lt e L).2, ?_⟩
      rw [sb (s' := (Tree.insert lt e L).1) (b := (Tree.insert lt e L).2) (by rw [PSet.add, get_b, lift_b _ (show checkFull (PSet.size L) INT_MAX = _ from if_neg hq)]; rfl)]; rfl
  | remove e => exact Or.inl ⟨_, rfl⟩
  | pop =>
    rw [SOp.step]
    by_cases hq : PSet.size L = 0
    · exact Or.inr ⟨_, by rw [throw_b (by rw [PSet.pop, get_b, lift_t _ (show checkEmpty (PSet.size L) = _ from if_pos hq)])]⟩
    · cases L with
      | nil => exact absurd size_nil hq
      | cons x L =>
        refine Or.inl ⟨.elem x, ?_⟩
        rw [sb (s' := L) (b := x) (by rw [PSet.pop, get_b, lift_b _ (show checkEmpty (PSet.size (x :: L)) = _ from if_neg hq)]; rfl)]; rfl
  | min =>
    rcases hmin with ⟨x, h⟩ | ⟨m, h⟩
    · exact Or.inl ⟨.elem x, by rw [SOp.step, get_b, lift_b _ h]; rfl⟩
    · exact Or.inr ⟨m, by rw [SOp.step, get_b, lift_t _ h]⟩
  | max =>
    rcases hmax with ⟨x, h⟩ | ⟨m, h⟩
    · exact Or.inl ⟨.elem x, by rw [SOp.step, get_b, lift_b _ h]; rfl⟩
    · exact Or.inr ⟨m, by rw [SOp.step, get_b, lift_t _ h]⟩
  | contains e => exact Or.inl ⟨_, rfl⟩
  | size => exact Or.inl ⟨_, rfl⟩
  | extend xs => exact Or.inl ⟨_, rfl⟩
  | clear => exact Or.inl ⟨_, rfl⟩
  | inter o => exact Or.inl ⟨_, rfl⟩
  | union o => exact Or.inl ⟨_, rfl⟩
  | diff o => exact Or.inl ⟨_, rfl⟩
  | symDiff o => exact Or.inl ⟨_, rfl⟩

theorem setRunT_ok (hB : B.Keeps) (W : StrictWeak lt) (hc : Agrees cmp lt) : ∀ (ops : List (SOp α)), (∀ op ∈ ops, SetArg lt op) → ∀ (t : BT α) (n : Nat),
    RB t → Increasing lt t.elems →
    RB (setRunT cmp B ops (t, n)).2.1 ∧ Increasing lt (setRunT cmp B ops (t, n)).2.1.elems ∧ (setRunT cmp B ops (t, n)).1.length = ops.length ∧
    ∀ r ∈ (setRunT cmp B ops (t, n)).1, (∃ x, r = .ok x) ∨ ∃ m, r = .throw m
  | [], _, t, n, hR, hI => ⟨hR, hI, rfl, fun r hr => by simp [setRunT] at hr⟩
  | op :: ops, hops, t, n, hR, hI => by
    have S := setStepT_ok hB W hc op (hops op (by simp)) hR hI n
    have hk : (∃ r, (setStepT cmp B op (t, n)).1 = .ok r) ∨ ∃ m, (setStepT cmp B op (t, n)).1 = .throw m := by
      rcases S.out with h | ⟨⟨a, b, m, -, h⟩, -⟩
      · have := set_noUb (lt := lt) op t.elems
        rw [← h] at this
        exact this
      · exact Or.inr ⟨m, h⟩
    rcases hr : setStepT cmp B op (t, n) with ⟨r, t', n'⟩
    rw [hr] at S hk
    obtain ⟨i1, i2, i3, i4⟩ := setRunT_ok hB W hc ops (fun o ho => hops o (by simp [ho])) t' n' S.rb S.inc
    rw [setRunT, hr]
    rcases hk with ⟨x, h⟩ | ⟨m, h⟩
    · dsimp only at h
      subst h
      refine ⟨i1, i2, by simp [i3], fun r hr => ?_⟩
      rcases List.mem_cons.mp hr with h | h
      · exact Or.inl ⟨x, h⟩
      · exact i4 r h
    · dsimp only at h
      subst h
      refine ⟨i1, i2, by simp [i3], fun r hr => ?_⟩
      rcases List.mem_cons.mp hr with h | h
      · exact Or.inr ⟨m, h⟩
      · exact i4 r h

end setT

section dictT
variable {K V : Type} {cmp : K → K → Res Bool} {lt : K → K → Bool} {B : Balancer (K × V)}

/-- What a step may do when the comparator may throw. -/
structure MStepT (cmp : K → K → Res Bool) (lt : K → K → Bool) (op : MOp K V) (L : List (K × V)) (got : Res (MRet K V) × BT (K × V) × Nat) : Prop where
  rb : RB got.2.1
  inc : Increasing (PDict.keyLt lt) got.2.1.elems
  out : (got.1, got.2.1.elems) = op.step lt L ∨
    (Threw cmp got.1 ∧ (got.2.1.elems = L ∨ ∃ xs i, op = .extend xs ∧ i < xs.length ∧ got.2.1.elems = Tree.insertAll (PDict.keyLt lt) (xs.take i) L))

theorem dictStepT_ok (hB : B.Keeps) (W : StrictWeak lt) (hc : Agrees cmp lt) (op : MOp K V) {t : BT (K × V)} (hR : RB t)
    (hI : Increasing (PDict.keyLt lt) t.elems) (n : Nat) : MStepT cmp lt op t.elems (dictStepT cmp B op (t, n)) := by
  by_cases hx : ∃ xs, op = .extend xs
  · obtain ⟨xs, rfl⟩ := hx
    obtain ⟨i1, i2, i3⟩ := extendS_ok (key := Prod.fst) hB W hc xs (t, n) hR hI
    rw [dictStepT]
    rcases hr : extendS Prod.fst cmp B xs (t, n) with ⟨r, s'⟩
    rw [hr] at i1 i2 i3
    rcases i3 with ⟨i3, i4⟩ | ⟨⟨a, b, m, g, i3⟩, i, i4, i5⟩
    · dsimp only at i3
      subst i3
      rw [sb hr]
      refine ⟨i1, i2, Or.inl ?_⟩
      show (Res.ok MRet.unit, s'.1.elems) = _
      rw [i4]; rfl
    · dsimp only at i3
      subst i3
      rw [throw_b hr]
      exact ⟨i1, i2, Or.inr ⟨⟨a, b, m, g, rfl⟩, Or.inr ⟨xs, i, rfl, i4, i5⟩⟩⟩
  · have hne : ∀ xs, op ≠ .extend xs := fun xs h => hx ⟨xs, h⟩
    have e : dictStepT cmp B op = dictStep cmp B op := by
      cases op <;> first | rfl | exact absurd rfl (hne _)
    have S := dict_sim hB W op hR hI n
    rw [e]
    rcases dictStep_ref (B := B) hc op hne (t, n) with h | ⟨a, b, m, s', g1, g2, g3⟩
    · rw [h]
      exact ⟨S.rb, S.inc, Or.inl (Prod.ext S.res S.elems)⟩
    · rw [g2]
      dsimp only at g3
      exact ⟨by rw [g3]; exact hR, by rw [g3]; exact hI, Or.inr ⟨⟨a, b, m, g1, rfl⟩, Or.inl (by rw [g3])⟩⟩

theorem mapFind_lt (k : K) : ∀ (d : List (K × V)) (i : Nat), PDict.mapFind lt k d = some i → i < d.length
  | [], i, h => by simp [PDict.mapFind] at h
  | p :: d, i, h => by
    rw [PDict.mapFind] at h
    split at h
    · cases hm : PDict.mapFind lt k d with
      | none => rw [hm] at h; simp at h
      | some j =>
        rw [hm] at h
        have := mapFind_lt k d j hm
        simp at h ⊢
        omega
    · split at h
      · simp at h
      · simp at h ⊢
        omega

theorem refAt_cases (d : List (K × V)) (k : K) : (∃ i p, PDict.refAt lt d k = .ok i ∧ vget d i = .ok p) ∨ ∃ m, PDict.refAt lt d k = .throw m := by
  unfold PDict.refAt
  cases hm : PDict.mapFind lt k d with
  | none => exact Or.inr ⟨_, rfl⟩
  | some i =>
    have := mapFind_lt k d i hm
    exact Or.inl ⟨i, d[i], rfl, by simp [vget, List.getElem?_eq_getElem this]⟩

theorem dget_cases (d : List (K × V)) (k : K) : (∃ v, PDict.get lt d k = .ok v) ∨ ∃ m, PDict.get lt d k = .throw m := by
  unfold PDict.get
  rcases refAt_cases (lt := lt) d k with ⟨i, p, h1, h2⟩ | ⟨m, h⟩
  · exact Or.inl ⟨p.2, by rw [h1, Res.ok_bind, h2, Res.ok_bind]; rfl⟩
  · exact Or.inr ⟨m, by rw [h]; rfl⟩

/-- No method of `Dict` is undefined. -/
theorem dict_noUb (op : MOp K V) (L : List (K × V)) : (∃ r, (op.step lt L).1 = .ok r) ∨ ∃ m, (op.step lt L).1 = .throw m := by
  cases op with
  | add k v =>
    rw [MOp.step]
    by_cases hq : PDict.size L ≥ INT_MAX
    · exact Or.inr ⟨_, by rw [throw_b (by rw [PDict.add, get_b, lift_t _ (show checkFull (PDict.size L) INT_MAX = _ from if_pos hq)])]⟩
    · refine Or.inl ⟨.bool (Tree.insert (PDict.keyLt lt) (k, v) L).2, ?_⟩
      rw [sb (s' := (Tree.insert (PDict.keyLt lt) (k, v) L).1) (b := (Tree.insert (PDict.keyLt lt) (k, v) L).2)
        (by rw [PDict.add, get_b, lift_b _ (show checkFull (PDict.size L) INT_MAX = _ from if_neg hq)]; rfl)]; rfl
  | remove k => exact Or.inl ⟨_, rfl⟩
  | assign k v =>
    rw [MOp.step]
    rcases refAt_cases (lt := lt) L k with ⟨i, p, h1, h2⟩ | ⟨m, h⟩
    · refine Or.inl ⟨.unit, ?_⟩
      rw [sb (s' := L.set i (p.1, v)) (b := ()) (by rw [PDict.assign, get_b, lift_b _ h1, lift_b _ h2]; rfl)]; rfl
    · exact Or.inr ⟨m, by rw [throw_b (by rw [PDict.assign, get_b, lift_t _ h])]⟩
  | get k =>
    rcases dget_cases (lt := lt) L k with ⟨x, h⟩ | ⟨m, h⟩
    · exact Or.inl ⟨.val x, by rw [MOp.step, get_b, lift_b _ h]; rfl⟩
    · exact Or.inr ⟨m, by rw [MOp.step, get_b, lift_t _ h]⟩
  | getOr k v =>
    have hg : (∃ x, PDict.getOr lt L k v = .ok x) ∨ ∃ m, PDict.getOr lt L k v = .throw m := by
      unfold PDict.getOr
      split
      · exact dget_cases L k
      · exact Or.inl ⟨v, rfl⟩
    rcases hg with ⟨x, h⟩ | ⟨m, h⟩
    · exact Or.inl ⟨.val x, by rw [MOp.step, get_b, lift_b _ h]; rfl⟩
    · exact Or.inr ⟨m, by rw [MOp.step, get_b, lift_t _ h]⟩
  | contains k => exact Or.inl ⟨_, rfl⟩
  | pop =>
    rw [MOp.step]
    by_cases hq : PDict.size L = 0
    · exact Or.inr ⟨_, by rw [throw_b (by rw [PDict.pop, get_b, lift_t _ (show checkEmpty (PDict.size L) = _ from if_pos hq)])]⟩
    · cases L with
      | nil => exact absurd (by simp [PDict.size, wrap32]) hq
      | cons x L =>
        refine Or.inl ⟨.pair x, ?_⟩
        rw [sb (s' := L) (b := x) (by rw [PDict.pop, get_b, lift_b _ (show checkEmpty (PDict.size (x :: L)) = _ from if_neg hq)]; rfl)]; rfl
  | size => exact Or.inl ⟨_, rfl⟩
  | extend xs => exact Or.inl ⟨_, rfl⟩
  | clear => exact Or.inl ⟨_, rfl⟩

theorem dictRunT_ok (hB : B.Keeps) (W : StrictWeak lt) (hc : Agrees cmp lt) : ∀ (ops : List (MOp K V)) (t : BT (K × V)) (n : Nat),
    RB t → Increasing (PDict.keyLt lt) t.elems →
    RB (dictRunT cmp B ops (t, n)).2.1 ∧ Increasing (PDict.keyLt lt) (dictRunT cmp B ops (t, n)).2.1.elems ∧ (dictRunT cmp B ops (t, n)).1.length = ops.length ∧
    ∀ r ∈ (dictRunT cmp B ops (t, n)).1, (∃ x, r = .ok x) ∨ ∃ m, r = .throw m
  | [], t, n, hR, hI => ⟨hR, hI, rfl, fun r hr => by simp [dictRunT] at hr⟩
  | op :: ops, t, n, hR, hI => by
    have S := dictStepT_ok hB W hc op hR hI n
    have hk : (∃ r, (dictStepT cmp B op (t, n)).1 = .ok r) ∨ ∃ m, (dictStepT cmp B op (t, n)).1 = .throw m := by
      rcases S.out with h | ⟨⟨a, b, m, -, h⟩, -⟩
      · have := dict_noUb (lt := lt) op t.elems
        rw [← h] at this
        exact this
      · exact Or.inr ⟨m, h⟩
    rcases hr : dictStepT cmp B op (t, n) with ⟨r, t', n'⟩
    rw [hr] at S hk
    obtain ⟨i1, i2, i3, i4⟩ := dictRunT_ok hB W hc ops t' n' S.rb S.inc
    rw [dictRunT, hr]
    rcases hk with ⟨x, h⟩ | ⟨m, h⟩
    · dsimp only at h
      subst h
      refine ⟨i1, i2, by simp [i3], fun r hr => ?_⟩
      rcases List.mem_cons.mp hr with h | h
      · exact Or.inl ⟨x, h⟩
      · exact i4 r h
    · dsimp only at h
      subst h
      refine ⟨i1, i2, by simp [i3], fun r hr => ?_⟩
      rcases List.mem_cons.mp hr with h | h
      · exact Or.inr ⟨m, h⟩
      · exact i4 r h

end dictT

end BT
end Pyincpp
