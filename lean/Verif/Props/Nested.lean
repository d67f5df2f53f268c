import Verif.Spec.Nested
import Verif.Props.Set
import Verif.Props.Dict
import Verif.Props.List
import Verif.Props.Compare
import Verif.Props.Throwing

/-! # C87 Containers of the library's own types

`lt'` on representations says what `lt` says on the values they represent: then every operation of a container of
representations does what it does on a container of values. -/

namespace Pyincpp

variable {α β : Type}

/-- A result in another representation. -/
def Res.conv {ρ σ : Type} (f : ρ → σ) : Res ρ → Res σ
  | .ok r => .ok (f r)
  | .throw m => .throw m
  | .ub u => .ub u
  | .fuel => .fuel

theorem Meth.run_bind {σ α β : Type} (m : Meth σ α) (f : α → Meth σ β) (s : σ) : (m >>= f) s = (match m s with
    | (.ok a, s') => f a s'
    | (.throw e, s') => (.throw e, s')
    | (.ub u, s') => (.ub u, s')
    | (.fuel, s') => (.fuel, s')) := (rfl)

theorem Meth.conv_pure {ρ ρ' τ τ' : Type} (f : α → β) (m : Meth (List α) ρ) (m' : Meth (List β) ρ') (g : ρ → ρ') (k : ρ → τ) (k' : ρ' → τ')
    (K : τ → τ') (hk : ∀ r, k' (g r) = K (k r)) (s : List α) (h : m' (s.map f) = ((m s).1.conv g, (m s).2.map f)) :
    (do pure (k' (← m')) : Meth (List β) τ') (s.map f) =
      (((do pure (k (← m)) : Meth (List α) τ) s).1.conv K, ((do pure (k (← m)) : Meth (List α) τ) s).2.map f) := by
  rw [Meth.run_bind, Meth.run_bind, h]
  generalize m s = q
  obtain ⟨r, s'⟩ := q
  cases r with
  | ok r => simp only [Res.conv, Meth.pure_run, hk]
  | throw m => rfl
  | ub u => rfl
  | fuel => rfl

theorem Res.conv_id {ρ : Type} (r : Res ρ) : r.conv id = r := by cases r <;> rfl

namespace Tree

variable {lt : α → α → Bool} {lt' : β → β → Bool} {f : α → β}

theorem insert_map (h : ∀ a b, lt' (f a) (f b) = lt a b) (x : α) (s : List α) :
    insert lt' (f x) (s.map f) = ((insert lt x s).1.map f, (insert lt x s).2) := by
  induction s with
  | nil => rfl
  | cons y ys ih =>
    simp only [List.map_cons, insert, h, ih]
    split
    · rfl
    · split <;> rfl

theorem insertAll_map (h : ∀ a b, lt' (f a) (f b) = lt a b) (xs s : List α) :
    insertAll lt' (xs.map f) (s.map f) = (insertAll lt xs s).map f := by
  unfold insertAll
  induction xs generalizing s with
  | nil => rfl
  | cons x xs ih => simp only [List.map_cons, List.foldl_cons, insert_map h, ih]

theorem erase_map (h : ∀ a b, lt' (f a) (f b) = lt a b) (x : α) (s : List α) :
    erase lt' (f x) (s.map f) = ((erase lt x s).1.map f, (erase lt x s).2) := by
  induction s with
  | nil => rfl
  | cons y ys ih =>
    simp only [List.map_cons, erase, h, ih]
    split
    · rfl
    · split <;> rfl

theorem find_map (h : ∀ a b, lt' (f a) (f b) = lt a b) (x : α) (s : List α) :
    find lt' (f x) (s.map f) = find lt x s := by
  induction s with
  | nil => rfl
  | cons y ys ih => simp only [List.map_cons, find, h, ih]

theorem walk_map (h : ∀ a b, lt' (f a) (f b) = lt a b) (l r b : Bool) (s t : List α) :
    walk lt' l r b (s.map f) (t.map f) = (walk lt l r b s t).map f := by
  induction s generalizing t with
  | nil => simp only [List.map_nil, walk]; split <;> rfl
  | cons a as ih =>
    simp only [List.map_cons, walk]
    induction t with
    | nil => simp only [List.map_nil, walkInner]; split <;> rfl
    | cons c cs ih2 =>
      have ih' := ih (c :: cs)
      rw [List.map_cons] at ih'
      simp only [List.map_cons, walkInner, h, ih2, ih', ih cs]
      repeat' split
      all_goals rfl

end Tree

namespace PSet

variable {lt : α → α → Bool} {lt' : β → β → Bool} {f : α → β}

theorem size_map (s : List α) : size (s.map f) = size s := by simp only [size, List.length_map]

theorem stdBegin_map (s : List α) : stdBegin (s.map f) = (stdBegin s).conv f := by
  cases s <;> rfl

theorem stdRbegin_map (s : List α) : stdRbegin (s.map f) = (stdRbegin s).conv f := by
  unfold stdRbegin
  rw [List.length_map]
  split
  · rfl
  · rename_i h
    have hl : s.length - 1 < s.length := by omega
    rw [vget_ok (by simpa using hl), vget_ok hl, List.getElem_map]; rfl

theorem getD_map (t : Option (List α)) (s : List α) : (t.map (List.map f)).getD (s.map f) = (t.getD s).map f := by
  cases t <;> rfl

theorem step_add (e : α) : SOp.step lt (.add e) = (do pure (.bool (← add lt e))) := (rfl)

theorem step_pop : SOp.step lt .pop = (do pure (.elem (← pop))) := (rfl)

theorem add_map (h : ∀ a b, lt' (f a) (f b) = lt a b) (e : α) (s : List α) :
    add lt' (f e) (s.map f) = ((add lt e s).1, (add lt e s).2.map f) := by
  simp only [add, Meth.get_bind, size_map]
  generalize checkFull (size s) INT_MAX = r
  cases r with
  | ok u => simp only [Meth.lift_ok_bind, Tree.insert_map h, Meth.set_bind, Meth.pure_run]
  | throw m => simp only [Meth.lift_throw_bind]
  | ub u => simp only [Meth.lift_ub_bind]
  | fuel => simp only [Meth.lift_fuel_bind]

theorem pop_map (s : List α) : pop (s.map f) = ((pop s).1.conv f, (pop s).2.map f) := by
  simp only [pop, Meth.get_bind, size_map, stdBegin_map]
  generalize checkEmpty (size s) = r
  cases r with
  | ok u =>
    generalize stdBegin s = q
    cases q <;>
      simp only [Meth.lift_ok_bind, Meth.lift_throw_bind, Meth.lift_ub_bind, Meth.lift_fuel_bind, Meth.set_bind, Meth.pure_run, Res.conv,
        List.map_drop]
  | throw m => simp only [Meth.lift_throw_bind, Res.conv]
  | ub u => simp only [Meth.lift_ub_bind, Res.conv]
  | fuel => simp only [Meth.lift_fuel_bind, Res.conv]

/-- One operation on a set of representations. -/
theorem step_map (h : ∀ a b, lt' (f a) (f b) = lt a b) (op : SOp α) (s : List α) :
    (op.map f).step lt' (s.map f) = ((op.step lt s).1.conv (SRet.map f), (op.step lt s).2.map f) := by
  have hn : ∀ xs : List α, Tree.insertAll lt' (xs.map f) [] = (Tree.insertAll lt xs []).map f :=
    fun xs => Tree.insertAll_map h xs []
  cases op with
  | add e => exact Meth.conv_pure f (add lt e) (add lt' (f e)) id _ _ (SRet.map f) (fun _ => rfl) s (by rw [add_map h, Res.conv_id])
  | remove e =>
    simp only [SOp.map, SOp.step, Meth.run_bind, Meth.get_run, Meth.lift_run, Meth.set_run, Meth.pure_run, remove, Meth.get_bind, Tree.erase_map h, Meth.set_bind, Meth.pure_run, Res.conv, SRet.map]
  | pop => exact Meth.conv_pure f pop pop f _ _ (SRet.map f) (fun _ => rfl) s (pop_map s)
  | min =>
    simp only [SOp.map, SOp.step, Meth.get_bind, min, size_map, stdBegin_map]
    generalize checkEmpty (size s) = r
    cases r with
    | ok u => rw [Res.ok_bind, Res.ok_bind]; cases stdBegin s <;> rfl
    | throw m => rfl
    | ub u => rfl
    | fuel => rfl
  | max =>
    simp only [SOp.map, SOp.step, Meth.get_bind, max, size_map, stdRbegin_map]
    generalize checkEmpty (size s) = r
    cases r with
    | ok u => rw [Res.ok_bind, Res.ok_bind]; cases stdRbegin s <;> rfl
    | throw m => rfl
    | ub u => rfl
    | fuel => rfl
  | contains e =>
    simp only [SOp.map, SOp.step, Meth.get_bind, contains, find, Tree.find_map h, Meth.pure_run, Res.conv, SRet.map]
  | size => simp only [SOp.map, SOp.step, Meth.get_bind, size_map, Meth.pure_run, Res.conv, SRet.map]
  | extend xs =>
    simp only [SOp.map, SOp.step, Meth.run_bind, Meth.get_run, Meth.lift_run, Meth.set_run, Meth.pure_run, extend, Meth.get_bind, Meth.set_run, Tree.insertAll_map h, Meth.pure_run, Res.conv, SRet.map]
  | clear => rfl
  | inter t =>
    simp only [SOp.map, SOp.step, Meth.run_bind, Meth.get_run, Meth.lift_run, Meth.set_run, Meth.pure_run, interAssign, inter, Tree.setIntersection, getD_map, Tree.walk_map h, hn, Meth.get_bind,
      Meth.set_run, Meth.pure_run, Res.conv, SRet.map]
  | union t =>
    simp only [SOp.map, SOp.step, Meth.run_bind, Meth.get_run, Meth.lift_run, Meth.set_run, Meth.pure_run, unionAssign, union, Tree.setUnion, getD_map, Tree.walk_map h, hn, Meth.get_bind,
      Meth.set_run, Meth.pure_run, Res.conv, SRet.map]
  | diff t =>
    simp only [SOp.map, SOp.step, Meth.run_bind, Meth.get_run, Meth.lift_run, Meth.set_run, Meth.pure_run, diffAssign, diff, Tree.setDifference, getD_map, Tree.walk_map h, hn, Meth.get_bind,
      Meth.set_run, Meth.pure_run, Res.conv, SRet.map]
  | symDiff t =>
    simp only [SOp.map, SOp.step, Meth.run_bind, Meth.get_run, Meth.lift_run, Meth.set_run, Meth.pure_run, symDiffAssign, symDiff, Tree.setSymmetricDifference, getD_map, Tree.walk_map h, hn,
      Meth.get_bind, Meth.set_run, Meth.pure_run, Res.conv, SRet.map]

theorem run_map (h : ∀ a b, lt' (f a) (f b) = lt a b) (ops : List (SOp α)) (s : List α) :
    SOp.run lt' (ops.map (SOp.map f)) (s.map f) =
      ((SOp.run lt ops s).1.map (Res.conv (SRet.map f)), (SOp.run lt ops s).2.map f) := by
  induction ops generalizing s with
  | nil => rfl
  | cons op ops ih =>
    simp only [List.map_cons, SOp.run, step_map h]
    generalize op.step lt s = q
    obtain ⟨r, s'⟩ := q
    cases r <;> simp only [Res.conv, ih, List.map_cons, List.map_nil]

end PSet

namespace PDict

variable {K K' V V' : Type} {lt : K → K → Bool} {lt' : K' → K' → Bool} {f : K → K'} {g : V → V'}

theorem keyLt_map (h : ∀ a b, lt' (f a) (f b) = lt a b) (p q : K × V) :
    keyLt lt' (Prod.map f g p) (Prod.map f g q) = keyLt lt p q := h _ _

theorem mapFind_map (h : ∀ a b, lt' (f a) (f b) = lt a b) (k : K) (d : List (K × V)) :
    mapFind lt' (f k) (d.map (Prod.map f g)) = mapFind lt k d := by
  induction d with
  | nil => rfl
  | cons p ps ih => simp only [List.map_cons, mapFind, Prod.map_fst, h, ih]

theorem mapErase_map (h : ∀ a b, lt' (f a) (f b) = lt a b) (k : K) (d : List (K × V)) :
    mapErase lt' (f k) (d.map (Prod.map f g)) = ((mapErase lt k d).1.map (Prod.map f g), (mapErase lt k d).2) := by
  induction d with
  | nil => rfl
  | cons p ps ih =>
    simp only [List.map_cons, mapErase, Prod.map_fst, h, ih]
    split
    · rfl
    · split <;> rfl

theorem size_map (d : List (K × V)) : size (d.map (Prod.map f g)) = size d := by simp only [size, List.length_map]

theorem refAt_map (h : ∀ a b, lt' (f a) (f b) = lt a b) (d : List (K × V)) (k : K) :
    refAt lt' (d.map (Prod.map f g)) (f k) = refAt lt d k := by simp only [refAt, mapFind_map h]

theorem vget_map (i : ℕ) (d : List (K × V)) : vget (d.map (Prod.map f g)) i = (vget d i).conv (Prod.map f g) := by
  simp only [vget, List.getElem?_map]
  cases d[i]? <;> rfl

theorem get_map (h : ∀ a b, lt' (f a) (f b) = lt a b) (d : List (K × V)) (k : K) :
    get lt' (d.map (Prod.map f g)) (f k) = (get lt d k).conv g := by
  simp only [get, refAt_map h, vget_map]
  cases refAt lt d k with
  | ok i => rw [Res.ok_bind, Res.ok_bind]; cases vget d i <;> rfl
  | throw m => rfl
  | ub u => rfl
  | fuel => rfl

theorem getOr_map (h : ∀ a b, lt' (f a) (f b) = lt a b) (d : List (K × V)) (k : K) (v : V) :
    getOr lt' (d.map (Prod.map f g)) (f k) (g v) = (getOr lt d k v).conv g := by
  have e : contains lt' (d.map (Prod.map f g)) (f k) = contains lt d k := by simp only [contains, mapFind_map h]
  simp only [getOr, e, get_map h]
  by_cases hc : contains lt d k = true
  · rw [if_pos hc, if_pos hc]
  · rw [if_neg hc, if_neg hc]; rfl

theorem add_map (h : ∀ a b, lt' (f a) (f b) = lt a b) (k : K) (v : V) (d : List (K × V)) :
    add lt' (f k) (g v) (d.map (Prod.map f g)) = ((add lt k v d).1, (add lt k v d).2.map (Prod.map f g)) := by
  have hi := Tree.insert_map (lt := keyLt lt) (lt' := keyLt lt') (f := Prod.map f g) (keyLt_map h) (k, v) d
  simp only [Prod.map_apply] at hi
  simp only [add, Meth.get_bind, size_map]
  generalize checkFull (size d) INT_MAX = r
  cases r with
  | ok u => simp only [Meth.lift_ok_bind, hi, Meth.set_bind, Meth.pure_run]
  | throw m => simp only [Meth.lift_throw_bind]
  | ub u => simp only [Meth.lift_ub_bind]
  | fuel => simp only [Meth.lift_fuel_bind]

theorem assign_map (h : ∀ a b, lt' (f a) (f b) = lt a b) (k : K) (v : V) (d : List (K × V)) :
    assign lt' (f k) (g v) (d.map (Prod.map f g)) = ((assign lt k v d).1, (assign lt k v d).2.map (Prod.map f g)) := by
  simp only [assign, Meth.get_bind, refAt_map h]
  cases refAt lt d k with
  | ok i =>
    simp only [Meth.lift_ok_bind, vget_map]
    cases vget d i with
    | ok p => simp only [Res.conv, Meth.lift_ok_bind, Meth.set_run, List.map_set, Prod.map_fst, Prod.map_apply]
    | throw m => simp only [Res.conv, Meth.lift_throw_bind]
    | ub u => simp only [Res.conv, Meth.lift_ub_bind]
    | fuel => simp only [Res.conv, Meth.lift_fuel_bind]
  | throw m => simp only [Meth.lift_throw_bind]
  | ub u => simp only [Meth.lift_ub_bind]
  | fuel => simp only [Meth.lift_fuel_bind]

theorem remove_map (h : ∀ a b, lt' (f a) (f b) = lt a b) (k : K) (d : List (K × V)) :
    remove lt' (f k) (d.map (Prod.map f g)) = ((remove lt k d).1, (remove lt k d).2.map (Prod.map f g)) := by
  simp only [remove, Meth.get_bind, mapErase_map h, Meth.set_bind, Meth.pure_run]

theorem pop_map (d : List (K × V)) : pop (d.map (Prod.map f g)) = ((pop d).1.conv (Prod.map f g), (pop d).2.map (Prod.map f g)) := by
  simp only [pop, Meth.get_bind, size_map, PSet.stdBegin_map]
  generalize checkEmpty (size d) = r
  cases r with
  | ok u =>
    generalize PSet.stdBegin d = q
    cases q <;>
      simp only [Meth.lift_ok_bind, Meth.lift_throw_bind, Meth.lift_ub_bind, Meth.lift_fuel_bind, Meth.set_bind, Meth.pure_run, Res.conv,
        List.map_drop]
  | throw m => simp only [Meth.lift_throw_bind, Res.conv]
  | ub u => simp only [Meth.lift_ub_bind, Res.conv]
  | fuel => simp only [Meth.lift_fuel_bind, Res.conv]

/-- One operation on a dictionary of representations. -/
theorem step_map (h : ∀ a b, lt' (f a) (f b) = lt a b) (op : MOp K V) (d : List (K × V)) :
    (op.map f g).step lt' (d.map (Prod.map f g)) =
      ((op.step lt d).1.conv (MRet.map f g), (op.step lt d).2.map (Prod.map f g)) := by
  cases op with
  | add k v =>
    exact Meth.conv_pure _ (add lt k v) (add lt' (f k) (g v)) id _ _ (MRet.map f g) (fun _ => rfl) d (by rw [add_map h, Res.conv_id])
  | remove k =>
    exact Meth.conv_pure _ (remove lt k) (remove lt' (f k)) id _ _ (MRet.map f g) (fun _ => rfl) d (by rw [remove_map h, Res.conv_id])
  | assign k v =>
    exact Meth.conv_pure _ (assign lt k v) (assign lt' (f k) (g v)) id (fun _ => .unit) (fun _ => .unit) (MRet.map f g) (fun _ => rfl) d
      (by rw [assign_map h, Res.conv_id])
  | get k =>
    simp only [MOp.map, MOp.step, Meth.get_bind, get_map h]
    cases get lt d k <;> rfl
  | getOr k v =>
    simp only [MOp.map, MOp.step, Meth.get_bind, getOr_map h]
    cases getOr lt d k v <;> rfl
  | contains k => simp only [MOp.map, MOp.step, Meth.get_bind, contains, mapFind_map h, Meth.pure_run, Res.conv, MRet.map]
  | pop => exact Meth.conv_pure _ pop pop (Prod.map f g) _ _ (MRet.map f g) (fun _ => rfl) d (pop_map d)
  | size => simp only [MOp.map, MOp.step, Meth.get_bind, size_map, Meth.pure_run, Res.conv, MRet.map]
  | extend xs =>
    have hi := Tree.insertAll_map (lt := keyLt lt) (lt' := keyLt lt') (f := Prod.map f g) (keyLt_map h) xs d
    exact Meth.conv_pure (Prod.map f g) (extend lt xs) (extend lt' (xs.map (Prod.map f g))) id (fun _ => .unit) (fun _ => .unit) (MRet.map f g)
      (fun _ => rfl) d (by simp only [extend, Meth.get_bind, Meth.set_run, hi, Res.conv_id])
  | clear => rfl

theorem run_map (h : ∀ a b, lt' (f a) (f b) = lt a b) (ops : List (MOp K V)) (d : List (K × V)) :
    MOp.run lt' (ops.map (MOp.map f g)) (d.map (Prod.map f g)) =
      ((MOp.run lt ops d).1.map (Res.conv (MRet.map f g)), (MOp.run lt ops d).2.map (Prod.map f g)) := by
  induction ops generalizing d with
  | nil => rfl
  | cons op ops ih =>
    simp only [List.map_cons, MOp.run, step_map h]
    generalize op.step lt d = q
    obtain ⟨r, s'⟩ := q
    cases r <;> simp only [Res.conv, ih, List.map_cons, List.map_nil]

end PDict

/-! ## Element types -/

/-- The comparison of the code, on the objects representing two values, is always defined and is the order of the values. -/
def Rep [LinearOrder α] (f : α → β) (lt : β → β → Res Bool) : Prop := ∀ a b, lt (f a) (f b) = .ok (ltOf a b)

theorem Rep.said [LinearOrder α] {f : α → β} {lt : β → β → Res Bool} (h : Rep f lt) (a b : α) : Tree.said lt (f a) (f b) = ltOf a b := by
  rw [Tree.said, h a b]

theorem conv_seen {ρ σ : Type} (f : ρ → σ) (r : Except String ρ) : (seen r).conv f = seenAs f r := by cases r <;> rfl

/-- C87 for sets. -/
theorem C87_set [LinearOrder α] {f : α → β} {lt : β → β → Res Bool} (h : Rep f lt) (ops : List (SOp α)) (s : List α)
    (hs : Increasing ltOf s) (hl : s.length ≤ maxLen) (hf : SOp.FairRun s.toFinset ops) :
    (SOp.run (Tree.said lt) (ops.map (SOp.map f)) (s.map f)).1 = (SOp.absRun s.toFinset ops).1.map (seenAs (SRet.map f)) ∧
    ∃ s' : List α, (SOp.run (Tree.said lt) (ops.map (SOp.map f)) (s.map f)).2 = s'.map f ∧ s'.Pairwise (· < ·) ∧
      s'.toFinset = (SOp.absRun s.toFinset ops).2 := by
  obtain ⟨h1, h2, h3⟩ := C45_set_history_partial ops s hs hl hf
  rw [PSet.run_map h.said, h1]
  refine ⟨?_, _, rfl, increasing_ltOf.1 h2, by ext x; rw [List.mem_toFinset]; exact h3 x⟩
  simp only [List.map_map]
  exact List.map_congr_left fun r _ => conv_seen _ r

/-- C87 for dictionaries; nothing is assumed about the values. -/
theorem C87_dict {K K' V V' : Type} [LinearOrder K] {f : K → K'} (g : V → V') {lt : K' → K' → Res Bool} (h : Rep f lt)
    (ops : List (MOp K V)) (hf : MOp.FairRun ∅ ops) :
    (MOp.run (Tree.said lt) (ops.map (MOp.map f g)) []).1 = (MOp.absRun ∅ ops).1.map (seenAs (MRet.map f g)) ∧
    ∃ d : List (K × V), (MOp.run (Tree.said lt) (ops.map (MOp.map f g)) []).2 = d.map (Prod.map f g) ∧ d.Pairwise (fun p q => p.1 < q.1) ∧
      ∀ k v, (k, v) ∈ d ↔ (MOp.absRun ∅ ops).2.lookup k = some v := by
  obtain ⟨h1, h2, h3⟩ := C46_dict_history_partial ops [] ∅ List.Pairwise.nil (by simp) (fun k v => by simp) hf
  have e := PDict.run_map (g := g) h.said ops []
  rw [List.map_nil] at e
  rw [e, h1]
  refine ⟨?_, _, rfl, h2, h3⟩
  simp only [List.map_map]
  exact List.map_congr_left fun r _ => conv_seen _ r

/-- `Int`. -/
theorem C87_int : Rep enc BInt.lt := fun a b => (C09_order a b).2.1

/-- The order of the bytes. -/
abbrev byteOrder : LinearOrder UInt8 := LinearOrder.lift' UInt8.toNat (fun _ _ h => UInt8.toNat_inj.1 h)

theorem lexLt_ltOf [LinearOrder α] (l m : List α) : Cmp.lexLt ltOf l m = ltOf l m := by
  induction l generalizing m with
  | nil =>
    cases m with
    | nil => simp [Cmp.lexLt, Cmp.lex3, ltOf]
    | cons b bs => simp [Cmp.lexLt, Cmp.lex3, ltOf]
  | cons a as ih =>
    cases m with
    | nil => simp [Cmp.lexLt, Cmp.lex3, ltOf]
    | cons b bs =>
      have := ih bs
      simp only [Cmp.lexLt, ltOf] at this
      simp only [Cmp.lexLt, Cmp.lex3, ltOf, List.cons_lt_cons_iff, decide_eq_true_eq]
      rcases lt_trichotomy a b with h | h | h
      · simp [h]
      · subst h; simp only [lt_irrefl, if_false, this]; simp
      · simp [h, not_lt_of_gt h, ne_of_gt h]

/-- `Str`, with the lexicographic order of the bytes. -/
theorem C87_str : @Rep _ _ (letI := byteOrder; inferInstance) id Str.lss := by
  let := byteOrder
  intro s t
  obtain ⟨c, h1, h2⟩ := Str.compare_spec s t
  have e : (fun a b : UInt8 => decide (a < b)) = (ltOf : UInt8 → UInt8 → Bool) := by
    funext a b
    exact decide_eq_decide.2 UInt8.lt_iff_toNat_lt
  rw [id, id, Str.lss, h1, ← lexLt_ltOf, Cmp.lexLt, ← e, h2]
  show Res.ok _ = Res.ok _
  congr 1
  split <;> [skip; split] <;> simp <;> omega

/-- `<=>` of the code, when it gives a comparison category. -/
def RepC [LinearOrder α] (f : α → β) (cmp : β → β → Res (Option Ordering)) : Prop := ∀ a b, cmp (f a) (f b) = .ok (some (orderOf a b))

/-- Element types without such a `<=>`. -/
theorem Rep.synth [LinearOrder α] {f : α → β} {lt : β → β → Res Bool} (h : Rep f lt) : RepC f (Cmp.synth lt) := by
  intro a b
  rw [Cmp.synth, h a b, h b a]
  rcases lt_trichotomy a b with hh | hh | hh
  · simp [ltOf, orderOf, hh]
  · subst hh; simp [ltOf, orderOf]
  · simp [ltOf, orderOf, hh, not_lt_of_gt hh]

theorem orderOf_cons [LinearOrder α] (a b : α) (as bs : List α) :
    orderOf (a :: as) (b :: bs) = if orderOf a b = .eq then orderOf as bs else orderOf a b := by
  unfold orderOf
  simp only [List.cons_lt_cons_iff]
  rcases lt_trichotomy a b with h | h | h
  · simp [h]
  · subst h
    simp only [lt_irrefl, true_and, false_or, if_true, if_false]
    split_ifs <;> rfl
  · simp [h, not_lt_of_gt h, ne_of_gt h]

/-- `List` and `Deque`, as elements of another sequence. -/
theorem C87_seq_cmp [LinearOrder α] {f : α → β} {cmp : β → β → Res (Option Ordering)} (h : RepC f cmp) :
    RepC (List.map f) (Cmp.lexCmp cmp) := by
  intro l m
  induction l generalizing m with
  | nil =>
    cases m with
    | nil => simp [Cmp.lexCmp, orderOf]
    | cons b bs => simp [Cmp.lexCmp, orderOf]
  | cons a as ih =>
    cases m with
    | nil => simp [Cmp.lexCmp, orderOf]
    | cons b bs =>
      rw [List.map_cons, List.map_cons, Cmp.lexCmp, h a b, Res.ok_bind, ih, orderOf_cons]
      cases orderOf a b <;> rfl

/-- `List` and `Deque`, as elements of a set or keys of a dictionary. -/
theorem C87_seq [LinearOrder α] {f : α → β} {cmp : β → β → Res (Option Ordering)} (h : RepC f cmp) :
    Rep (List.map f) (Cmp.lss cmp) := by
  intro l m
  rw [Cmp.lss, C87_seq_cmp h l m, Res.ok_bind, ltOf]
  rcases lt_trichotomy l m with hh | hh | hh
  · simp [hh, orderOf]
  · subst hh; simp [orderOf]
  · simp [hh, not_lt_of_gt hh, orderOf]

/-- The fractions in lowest terms with both parts up to 32767, which the code can compare. -/
abbrev SmallFrac := { x : Frac // x.Valid ∧ |x.num| ≤ 32767 ∧ x.den ≤ 32767 }

noncomputable abbrev fracOrder : LinearOrder SmallFrac :=
  LinearOrder.lift' (fun x => x.1.val) (fun x y h => Subtype.ext ((C49_unique x.2.1 y.2.1).1 h))

/-- `Fraction`, with the order of the rational numbers. -/
theorem C87_fraction_partial : @Rep _ _ fracOrder Subtype.val Frac.lss := by
  rintro ⟨x, hx, a, b⟩ ⟨y, hy, c, d⟩
  refine ((C52_less_partial hx hy).1 ⟨?_, ?_, ?_⟩).1.trans ?_
  rotate_left 3
  · show Res.ok _ = Res.ok _
    congr 1
  all_goals
    have := abs_le.1 a
    have := abs_le.1 c
    have := hx.pos
    have := hy.pos
    have h1 : |x.num * y.den| ≤ 32767 * 32767 := by
      rw [abs_mul]; exact mul_le_mul a (by rw [abs_of_pos hy.pos]; exact d) (abs_nonneg _) (by norm_num)
    have h2 : |x.den * y.num| ≤ 32767 * 32767 := by
      rw [abs_mul]; exact mul_le_mul (by rw [abs_of_pos hx.pos]; exact b) c (abs_nonneg _) (by norm_num)
    rw [abs_le] at h1 h2
    unfold IsInt INT_MIN INT_MAX
    omega

/-- Sets of lists of `Int`s, and of lists of lists of them. -/
theorem C87_nested : Rep (List.map enc) (Cmp.lss (Cmp.synth BInt.lt)) ∧
    Rep (List.map (List.map enc)) (Cmp.lss (Cmp.lexCmp (Cmp.synth BInt.lt))) :=
  ⟨C87_seq C87_int.synth, C87_seq (C87_seq_cmp C87_int.synth)⟩

example : SOp.run (Tree.said BInt.lt) [.add (enc (-5)), .add (enc 123456789012), .add (enc (-5)), .max, .pop, .size] [enc 7] =
    ([.ok (.bool true), .ok (.bool true), .ok (.bool false), .ok (.elem (enc 123456789012)), .ok (.elem (enc (-5))), .ok (.int 2)],
      [enc 7, enc 123456789012]) := by decide +kernel
example : SOp.run (Tree.said (Cmp.lss (Cmp.synth BInt.lt))) [.add [enc 2], .add [enc 1, enc 5], .contains [enc 1, enc 5], .min] [] =
    ([.ok (.bool true), .ok (.bool true), .ok (.bool true), .ok (.elem [enc 1, enc 5])], [[enc 1, enc 5], [enc 2]]) := by decide +kernel
example : SOp.FairRun [7].toFinset [.add (-5), .add 123456789012, .add (-5), .max, .pop, .size] := by
  simp only [SOp.FairRun, SOp.Fair, true_and]
  repeat' first | trivial | split
example : MOp.run (Tree.said Str.lss) [.add [98] 1, .add [97] 2, .add [98] 3, .get [98], .pop] [] =
    ([.ok (.bool true), .ok (.bool true), .ok (.bool false), .ok (.val 1), .ok (.pair ([97], 2))], [([98], 1)]) := by
  decide +kernel

/-! ## Lists -/

/-- A result of an abstract operation, in the other representation. -/
def absMap (f : α → β) : Except String (Option α × List α) → Except String (Option β × List β)
  | .ok (r, l) => .ok (r.map f, l.map f)
  | .error m => .error m

theorem erase_map_inj [DecidableEq α] [DecidableEq β] {f : α → β} (hf : Function.Injective f) (l : List α) (e : α) :
    (l.map f).erase (f e) = (l.erase e).map f := by
  rw [List.map_erase hf]

theorem rotated_map (f : α → β) (l : List α) (n : ℤ) : rotated (l.map f) n = (rotated l n).map f := by
  simp only [rotated, List.length_map, List.map_rotate]

theorem abs_map [DecidableEq α] [DecidableEq β] {f : α → β} (hf : Function.Injective f) (op : LOp α) (l : List α) :
    (op.map f).abs (l.map f) = absMap f (op.abs l) := by
  cases op with
  | insert i e =>
    simp only [LOp.map, LOp.abs, List.length_map]
    split
    · rfl
    · cases pyInsertPoint l.length i with
      | none => rfl
      | some p => simp only [absMap, List.map_insertIdx]; rfl
  | remove i =>
    simp only [LOp.map, LOp.abs, List.length_map, List.map_eq_nil_iff]
    split
    · rfl
    · cases pyIndex l.length i with
      | none => rfl
      | some p => simp only [absMap, List.getElem?_map, List.eraseIdx_map]
  | append e =>
    simp only [LOp.map, LOp.abs, List.length_map]
    split
    · rfl
    · simp only [absMap, List.map_append]; rfl
  | extendList m =>
    simp only [LOp.map, LOp.abs, List.length_map]
    split
    · rfl
    · simp only [absMap, List.map_append]; rfl
  | extend m => simp only [LOp.map, LOp.abs, absMap, List.map_append]; rfl
  | removeFirst e => simp only [LOp.map, LOp.abs, absMap, erase_map_inj hf]; rfl
  | removeAll a =>
    cases a with
    | val e =>
      simp only [LOp.map, LOp.abs, absMap, List.filter_map, Option.map_none]
      congr 4
      funext x
      simp [hf.eq_iff]
    | ref p =>
      simp only [LOp.map, LOp.abs, absMap, List.filter_map, Option.map_none, List.getElem?_map]
      congr 4
      funext x
      simp only [Function.comp]
      cases l[p]? with
      | none => simp
      | some y => simp [hf.eq_iff]
  | rotL n => simp only [LOp.map, LOp.abs, absMap, rotated_map]; rfl
  | rotR n => simp only [LOp.map, LOp.abs, absMap, rotated_map]; rfl
  | reverse => simp only [LOp.map, LOp.abs, absMap, List.map_reverse]; rfl
  | erase a b =>
    simp only [LOp.map, LOp.abs, List.length_map]
    split
    · simp only [absMap, List.map_append, List.map_take, List.map_drop]; rfl
    · rfl
  | assign i e =>
    simp only [LOp.map, LOp.abs, List.length_map]
    cases pyIndex l.length i with
    | none => rfl
    | some p => simp only [absMap, List.map_set]; rfl
  | clear => rfl
  | addSelf =>
    simp only [LOp.map, LOp.abs, List.length_map]
    split
    · rfl
    · simp only [absMap, List.map_append]; rfl

theorem fair_map [DecidableEq α] [DecidableEq β] {f : α → β} (hf : Function.Injective f) (op : LOp α) (l : List α) (ht : op.Typed)
    (h : op.Fair l) : (op.map f).Typed ∧ (op.map f).Fair (l.map f) := by
  cases op with
  | removeAll a =>
    cases a with
    | val e => exact ⟨trivial, trivial⟩
    | ref p =>
      refine ⟨trivial, ?_⟩
      have := abs_map hf (.removeAll (.ref p)) l
      simp only [LOp.map, LOp.abs, absMap, Except.ok.injEq, Prod.mk.injEq] at this
      simp only [LOp.map, LOp.Fair] at h ⊢
      rw [this.2]
      simpa using h
  | _ => first | exact ⟨ht, h⟩ | simpa [LOp.map, LOp.Typed, LOp.Fair] using And.intro ht h

theorem absRun_map [DecidableEq α] [DecidableEq β] {f : α → β} (hf : Function.Injective f) (ops : List (LOp α)) (l : List α)
    (h : FairRun l ops) : FairRun (l.map f) (ops.map (LOp.map f)) ∧
      (absRun (l.map f) (ops.map (LOp.map f))).1.map seen = (absRun l ops).1.map (seenAs (Option.map f)) ∧
      (absRun (l.map f) (ops.map (LOp.map f))).2 = (absRun l ops).2.map f := by
  induction ops generalizing l with
  | nil => exact ⟨trivial, rfl, rfl⟩
  | cons op ops ih =>
    obtain ⟨ht, hfair, hrest⟩ := h
    obtain ⟨t1, t2⟩ := fair_map hf op l ht hfair
    have e := abs_map hf op l
    simp only [List.map_cons, FairRun, absRun]
    rw [e]
    cases ha : op.abs l with
    | ok x =>
      obtain ⟨r, l'⟩ := x
      simp only [ha] at hrest
      obtain ⟨h1, h2, h3⟩ := ih l' hrest
      simp only [absMap, List.map_cons, h2, h3, seen, seenAs]
      exact ⟨⟨t1, t2, h1⟩, trivial, trivial⟩
    | error m =>
      simp only [ha] at hrest
      obtain ⟨h1, h2, h3⟩ := ih l hrest
      simp only [absMap, List.map_cons, h2, h3, seen, seenAs]
      exact ⟨⟨t1, t2, h1⟩, trivial, trivial⟩

/-- C87 for lists: the elements are objects with an `==` that is equality of the values they represent. -/
theorem C87_list [DecidableEq α] [DecidableEq β] {f : α → β} (hf : Function.Injective f) (ops : List (LOp α)) (l : List α)
    (hl : l.length ≤ maxLen) (h : FairRun l ops) :
    (LOp.run .lenient (ops.map (LOp.map f)) (l.map f)).1 = (absRun l ops).1.map (seenAs (Option.map f)) ∧
    (LOp.run .lenient (ops.map (LOp.map f)) (l.map f)).2 = (absRun l ops).2.map f := by
  obtain ⟨h1, h2, h3⟩ := absRun_map hf ops l h
  obtain ⟨k1, k2⟩ := C36_list_history_partial (ops.map (LOp.map f)) (l.map f) (by simpa using hl) h1
  exact ⟨k1.trans h2, k2.trans h3⟩

/-- `==` of `Int` is equality of objects, so that C87_list applies to it with `enc`. -/
theorem C87_int_eq (a b : BInt) : BInt.eq a b = decide (a = b) := by
  cases a; cases b
  simp only [BInt.eq, BInt.mk.injEq]
  rw [Bool.eq_iff_iff]
  simp

example : LOp.run .lenient [.append (enc 5), .removeAll (.val (enc 3)), .rotL 1] [enc 3, enc (-4), enc 3, enc 99999999999] =
    ([.ok none, .ok none, .ok none], [enc 99999999999, enc 5, enc (-4)]) := by decide +kernel

end Pyincpp
