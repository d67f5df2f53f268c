import Verif.Model.DequeBlockExtend
import Verif.Proof.DequeBlockRun

/-! # Extending a `Deque` on the blocks of libstdc++ -/

namespace Pyincpp
namespace Blk
open BT (sb get_b throw_b lift_b lift_t)
variable {α : Type} {d : Blk α} {xs : List α}

/-- The blocks up to `c` after the last one are allocated too. -/
structure Ext (d : Blk α) (xs : List α) (c : Nat) : Prop where
  rep : Rep d xs
  nodes : ∀ k, d.sn ≤ k → k ≤ d.fn + c → ∃ id, d.map k = some id ∧ d.live id = true ∧ id < d.next
  inj : ∀ k k' id, d.sn ≤ k → k ≤ d.fn + c → d.sn ≤ k' → k' ≤ d.fn + c → d.map k = some id → d.map k' = some id → k = k'

/-- What allocating blocks leaves as it was. -/
structure Frame (d d' : Blk α) : Prop where
  S : d'.S = d.S
  sn : d'.sn = d.sn
  so : d'.so = d.so
  fn : d'.fn = d.fn
  fo : d'.fo = d.fo
  msize : d'.msize = d.msize
  map : ∀ k ≤ d.fn, d'.map k = d.map k

theorem Frame.refl (d : Blk α) : Frame d d := ⟨rfl, rfl, rfl, rfl, rfl, rfl, fun _ _ => rfl⟩

theorem Frame.trans {a b c : Blk α} (h : Frame a b) (h' : Frame b c) : Frame a c :=
  ⟨h'.S.trans h.S, h'.sn.trans h.sn, h'.so.trans h.so, h'.fn.trans h.fn, h'.fo.trans h.fo, h'.msize.trans h.msize,
    fun k hk => (h'.map k (by rw [h.fn]; exact hk)).trans (h.map k hk)⟩

theorem Frame.place (h : Frame d d') (R : Rep d xs) (i : Nat) (hi : i ≤ xs.length) : place d' i = place d i := by
  unfold Blk.place
  rw [h.S, h.sn, h.so, h.map _ (R.k_le hi)]

theorem Ext.zero (R : Rep d xs) : Ext d xs 0 := ⟨R, R.nodes, R.inj⟩

/-- Giving back the new blocks. -/
theorem freeNodes_ok {c : Nat} (E : Ext d xs c) (hb : d.fn + c < d.msize) : ∀ n, n ≤ c →
    ∃ L, freeNodes d.fn n d = (.ok (), { d with live := L }) ∧
      (∀ k id, d.sn ≤ k → (k ≤ d.fn ∨ d.fn + n < k ∧ k ≤ d.fn + c) → d.map k = some id → L id = true) ∧
      ∀ id, L id = true → d.live id = true ∧ ∀ k, d.fn < k → k ≤ d.fn + n → d.map k ≠ some id
  | 0, _ => ⟨d.live, rfl, fun k id h1 h2 h3 => by
      obtain ⟨j, i1, i2, -⟩ := E.nodes k h1 (by omega)
      rw [h3] at i1
      cases i1
      exact i2, fun id h => ⟨h, fun k h1 h2 => by omega⟩⟩
  | n + 1, hn => by
    have hle := E.rep.sn_le
    obtain ⟨L, e, h, hL⟩ := freeNodes_ok E hb n (by omega)
    obtain ⟨id, i1, -, -⟩ := E.nodes (d.fn + (n + 1)) (by omega) (by omega)
    rw [freeNodes, sb e]
    refine ⟨fun i => if i = id then false else L i, ?_, ?_, ?_⟩
    · apply upd_e
      unfold freeNode
      rw [node_of (id := id) (by dsimp only; omega) (by exact i1) (by exact h _ _ (by omega) (Or.inr ⟨by omega, by omega⟩) i1), Res.ok_bind]
    · intro k j h1 h2 h3
      dsimp only
      rw [if_neg]
      · exact h k j h1 (by omega) h3
      · rintro rfl
        have := E.inj k (d.fn + (n + 1)) j h1 (by omega) (by omega) (by omega) h3 i1
        omega
    · intro j hj
      dsimp only at hj
      by_cases h0 : j = id
      · rw [if_pos h0] at hj
        cases hj
      · rw [if_neg h0] at hj
        refine ⟨(hL j hj).1, fun k h1 h2 h3 => ?_⟩
        by_cases hk : k = d.fn + (n + 1)
        · rw [hk, i1] at h3
          cases h3
          exact h0 rfl
        · exact (hL j hj).2 k h1 (by omega) h3

theorem newNodes_throw {fn i n : Nat} {d d1 : Blk α} {m : String} (e : allocNode d = (.throw m, d1)) :
    newNodes fn i (n + 1) d = (freeNodes fn (i - 1) >>= fun _ => Meth.lift (.throw m)) d1 := by
  have : ∀ r, allocNode d = r → (match r with
    | (.ok id, d') => (upd (setMap (fn + i) id) >>= fun _ => newNodes fn (i + 1) n) d'
    | (.throw m, d') => (freeNodes fn (i - 1) >>= fun _ => Meth.lift (.throw m)) d'
    | (.ub u, d') => (.ub u, d')
    | (.fuel, d') => (.fuel, d') : Res Unit × Blk α) = newNodes fn i (n + 1) d := by
    rintro r rfl
    rfl
  exact (this _ e).symm

theorem newNodes_alloc {fn i n id : Nat} {d d1 : Blk α} (e : allocNode d = (.ok id, d1)) :
    newNodes fn i (n + 1) d = (upd (setMap (fn + i) id) >>= fun _ => newNodes fn (i + 1) n) d1 := by
  have : ∀ r, allocNode d = r → (match r with
    | (.ok id, d') => (upd (setMap (fn + i) id) >>= fun _ => newNodes fn (i + 1) n) d'
    | (.throw m, d') => (freeNodes fn (i - 1) >>= fun _ => Meth.lift (.throw m)) d'
    | (.ub u, d') => (.ub u, d')
    | (.fuel, d') => (.fuel, d') : Res Unit × Blk α) = newNodes fn i (n + 1) d := by
    rintro r rfl
    rfl
  exact (this _ e).symm

theorem newNodes_ok : ∀ (n c : Nat) {d : Blk α}, Ext d xs c → d.fn + c + n < d.msize →
    (∃ m d', newNodes d.fn (c + 1) n d = (.throw m, d') ∧ m = "std::bad_alloc" ∧ Rep d' xs ∧ Frame d d' ∧ d.grants < n ∧
      ∀ id, d'.live id = true → d.live id = true ∧ ∀ k, d.fn < k → k ≤ d.fn + c → d.map k ≠ some id) ∨
    ∃ d', newNodes d.fn (c + 1) n d = (.ok (), d') ∧ Ext d' xs (c + n) ∧ Frame d d' ∧ d.grants = d'.grants + n
  | 0, c, d, E, _ => Or.inr ⟨d, rfl, E, Frame.refl d, rfl⟩
  | n + 1, c, d, E, hb => by
    have hle := E.rep.sn_le
    cases hg : d.grants with
    | zero =>
      left
      obtain ⟨L, e, h, hL⟩ := freeNodes_ok E (by omega) c (le_refl _)
      have e1 : allocNode d = (.throw "std::bad_alloc", d) := by unfold allocNode; rw [hg]
      rw [newNodes_throw e1, Nat.add_sub_cancel, sb e]
      refine ⟨_, _, rfl, rfl, ?_, ⟨rfl, rfl, rfl, rfl, rfl, rfl, fun _ _ => rfl⟩, by omega, hL⟩
      have R := E.rep
      refine ⟨R.pos, R.so, R.fn, R.fo, R.bound, ?_, R.inj, R.cells⟩
      intro k h1 h2
      obtain ⟨id, i1, -, i3⟩ := R.nodes k h1 h2
      exact ⟨id, i1, h k id h1 (Or.inl h2) i1, i3⟩
    | succ g =>
      have e1 : allocNode d = (.ok d.next, { d with
          grants := g, next := d.next + 1, live := fun i => if i = d.next then true else d.live i,
          mem := fun i p => if i = d.next then none else d.mem i p }) := by unfold allocNode; rw [hg]
      rw [newNodes_alloc e1, setMap_b _ (by dsimp only; omega)]
      have hnext : ∀ k j, d.sn ≤ k → k ≤ d.fn + c → d.map k = some j → j ≠ d.next ∧ j < d.next := by
        intro k j h1 h2 h3
        obtain ⟨j', i1, -, i2⟩ := E.nodes k h1 h2
        rw [h3] at i1
        cases i1
        exact ⟨by omega, i2⟩
      have E' : Ext { d with
          grants := g, next := d.next + 1, live := fun i => if i = d.next then true else d.live i,
          mem := fun i p => if i = d.next then none else d.mem i p, map := fun j => if j = d.fn + (c + 1) then some d.next else d.map j } xs (c + 1) := by
        have R := E.rep
        have hN : ∀ k, d.sn ≤ k → k ≤ d.fn + (c + 1) → ∃ id, (if k = d.fn + (c + 1) then some d.next else d.map k) = some id ∧
            (if id = d.next then true else d.live id) = true ∧ id < d.next + 1 := by
          intro k h1 h2
          by_cases hk : k = d.fn + (c + 1)
          · exact ⟨d.next, by rw [if_pos hk], by rw [if_pos rfl], by omega⟩
          · obtain ⟨j, i1, i2, i3⟩ := E.nodes k h1 (by omega)
            exact ⟨j, by rw [if_neg hk]; exact i1, by split <;> [rfl; exact i2], by omega⟩
        have hI : ∀ k k' id, d.sn ≤ k → k ≤ d.fn + (c + 1) → d.sn ≤ k' → k' ≤ d.fn + (c + 1) →
            (if k = d.fn + (c + 1) then some d.next else d.map k) = some id → (if k' = d.fn + (c + 1) then some d.next else d.map k') = some id → k = k' := by
          intro k k' j h1 h2 h3 h4 h5 h6
          by_cases hk : k = d.fn + (c + 1)
          · by_cases hk' : k' = d.fn + (c + 1)
            · omega
            · rw [if_pos hk] at h5
              rw [if_neg hk'] at h6
              cases h5
              exact absurd rfl (hnext k' _ h3 (by omega) h6).1
          · rw [if_neg hk] at h5
            by_cases hk' : k' = d.fn + (c + 1)
            · rw [if_pos hk'] at h6
              cases h6
              exact absurd rfl (hnext k _ h1 (by omega) h5).1
            · rw [if_neg hk'] at h6
              exact E.inj k k' j h1 (by omega) h3 (by omega) h5 h6
        refine ⟨⟨R.pos, R.so, R.fn, R.fo, R.bound, fun k h1 h2 => hN k h1 (le_trans h2 (Nat.le_add_right _ _)), fun k k' id h1 h2 h3 h4 =>
          hI k k' id h1 (le_trans h2 (Nat.le_add_right _ _)) h3 (le_trans h4 (Nat.le_add_right _ _)), ?_⟩, hN, hI⟩
        intro i x hx id hid
        dsimp only at hid ⊢
        have hi : i < xs.length := by
          by_contra hc
          rw [List.getElem?_eq_none (by omega)] at hx
          cases hx
        have hk := R.k_le hi.le
        rw [if_neg (by omega)] at hid
        rw [if_neg (hnext _ id (Nat.le_add_right _ _) (by omega) hid).1]
        exact R.cells i x hx id hid
      have F : Frame d { d with
          grants := g, next := d.next + 1, live := fun i => if i = d.next then true else d.live i,
          mem := fun i p => if i = d.next then none else d.mem i p, map := fun j => if j = d.fn + (c + 1) then some d.next else d.map j } :=
        ⟨rfl, rfl, rfl, rfl, rfl, rfl, fun k hk => by dsimp only; rw [if_neg (by omega)]⟩
      rcases newNodes_ok n (c + 1) E' (by dsimp only; omega) with ⟨m, d', a1, a2, a3, a4, a5, a6⟩ | ⟨d', a1, a2, a3, a4⟩
      · refine Or.inl ⟨m, d', a1, a2, a3, F.trans a4, by dsimp only at a5; omega, fun id h => ?_⟩
        obtain ⟨b1, b2⟩ := a6 id h
        dsimp only at b1 b2
        have hne : id ≠ d.next := by
          rintro rfl
          exact b2 (d.fn + (c + 1)) (by omega) (le_refl _) (by rw [if_pos rfl])
        rw [if_neg hne] at b1
        refine ⟨b1, fun k h1 h2 h3 => b2 k h1 (by omega) ?_⟩
        rw [if_neg (by omega)]
        exact h3
      · exact Or.inr ⟨d', a1, by rw [show c + (n + 1) = c + 1 + n by omega]; exact a2, F.trans a3, by dsimp only at a4; omega⟩

/-- The state with `_M_finish` after the elements `ys`. -/
def upTo (d : Blk α) (n : Nat) : Blk α := { d with fn := d.sn + (d.so + n) / d.S, fo := (d.so + n) % d.S }

theorem fill_ok : ∀ (xs ys : List α) {d : Blk α}, Rep (upTo d ys.length) ys →
    (∀ k, d.sn ≤ k → k ≤ d.sn + (d.so + (ys.length + xs.length)) / d.S → ∃ id, d.map k = some id ∧ d.live id = true ∧ id < d.next) →
    (∀ k k' id, d.sn ≤ k → k ≤ d.sn + (d.so + (ys.length + xs.length)) / d.S → d.sn ≤ k' → k' ≤ d.sn + (d.so + (ys.length + xs.length)) / d.S →
      d.map k = some id → d.map k' = some id → k = k') →
    d.sn + (d.so + (ys.length + xs.length)) / d.S < d.msize →
    ∃ M, fill xs (d.sn + (d.so + ys.length) / d.S) ((d.so + ys.length) % d.S) d = (.ok (), { d with mem := M }) ∧
      Rep (upTo { d with mem := M } (ys ++ xs).length) (ys ++ xs)
  | [], ys, d, R, _, _, _ => ⟨d.mem, rfl, by rw [List.append_nil]; exact R⟩
  | x :: xs, ys, d, R, hN, hI, hb => by
    have hp : 0 < d.S := R.pos
    have hmono : ∀ n, n ≤ ys.length + (x :: xs).length → d.sn + (d.so + n) / d.S ≤ d.sn + (d.so + (ys.length + (x :: xs).length)) / d.S := fun n hn =>
      Nat.add_le_add_left (Nat.div_le_div_right (by omega)) _
    have h0 := hmono ys.length (by omega)
    have h1 := hmono (ys.length + 1) (by simp)
    have hl : (ys ++ [x]).length = ys.length + 1 := by simp
    have hl' : ys.length + (x :: xs).length = (ys ++ [x]).length + xs.length := by simp; omega
    obtain ⟨id, i1, i2, -⟩ := hN _ (Nat.le_add_right _ _) h0
    rw [fill, get_b, upd_b (write_of (node_of (by omega) i1 i2) (Nat.mod_lt _ hp))]
    have R' : Rep (upTo { d with mem := fun i p => if i = id ∧ p = (d.so + ys.length) % d.S then some x else d.mem i p } (ys ++ [x]).length) (ys ++ [x]) := by
      rw [hl]
      constructor
      · exact hp
      · exact R.so
      · rw [hl]; rfl
      · rw [hl]; rfl
      · show d.sn + (d.so + (ys.length + 1)) / d.S < d.msize
        omega
      · intro k k1 k2
        exact hN k k1 (le_trans k2 h1)
      · intro k k' j k1 k2 k3 k4
        exact hI k k' j k1 (le_trans k2 h1) k3 (le_trans k4 h1)
      · intro i y hy j hj
        change d.map (d.sn + (d.so + i) / d.S) = some j at hj
        show (if j = id ∧ (d.so + i) % d.S = (d.so + ys.length) % d.S then some x else d.mem j ((d.so + i) % d.S)) = some y
        by_cases hi : i < ys.length
        · rw [List.getElem?_append_left hi] at hy
          exact (R.mem_at (le_refl _) i1 hi.le (by omega) hj).trans (R.cells i y hy j hj)
        · have : i = ys.length := by
            by_contra hc
            rw [List.getElem?_eq_none (by simp; omega)] at hy
            cases hy
          subst this
          rw [i1] at hj
          simp at hj hy
          simp [hj, hy]
    have IH := fill_ok xs (ys ++ [x]) (d := { d with mem := fun i p => if i = id ∧ p = (d.so + ys.length) % d.S then some x else d.mem i p }) R'
      (by rw [← hl']; exact hN) (by rw [← hl']; exact hI) (by rw [← hl']; exact hb)
    obtain ⟨M, e, r⟩ := IH
    refine ⟨M, ?_, by rw [List.append_assoc] at r; exact r⟩
    rw [← e]
    dsimp only
    rw [hl]
    by_cases h : (d.so + ys.length) % d.S + 1 = d.S
    · obtain ⟨s1, s2⟩ := step_out hp (a := d.so + ys.length) (by omega)
      rw [if_pos h, ← Nat.add_assoc, s1, s2, Nat.add_assoc]
    · have := Nat.mod_lt (d.so + ys.length) hp
      obtain ⟨s1, s2⟩ := step_in hp (a := d.so + ys.length) (by omega)
      rw [if_neg h, ← Nat.add_assoc, s1, s2]

theorem realloc_live (n : Nat) (f : Bool) (d : Blk α) : (reallocMap n f d).2.live = d.live := by
  unfold reallocMap
  dsimp only
  repeat' split
  all_goals rfl

theorem reserveBackN_ok (R : Rep d xs) (n : Nat) :
    (reserveBackN n d = (.throw "std::bad_alloc", d) ∧ d.grants = 0) ∨
    ∃ d', reserveBackN n d = (.ok (), d') ∧ Rep d' xs ∧ (∀ i ≤ xs.length, place d' i = place d i) ∧ d'.S = d.S ∧ d'.so = d.so ∧ d'.fo = d.fo ∧
      d'.fn + n < d'.msize ∧ d.grants ≤ d'.grants + 1 ∧ d'.live = d.live := by
  unfold reserveBackN
  rw [get_b]
  split
  · rcases R.realloc_ok n false with h | ⟨d', a1, a2, a3, a4, a5, a6, a7, -, a9, -⟩
    · exact Or.inl h
    · exact Or.inr ⟨d', a1, a2, a3, a4, a5, a6, a9 rfl, a7, by rw [← realloc_live n false d, a1]⟩
  · exact Or.inr ⟨d, rfl, R, fun _ _ => rfl, rfl, rfl, rfl, by have := R.bound; omega, by omega, rfl⟩

/-- `_M_reserve_elements_at_back`. -/
theorem reserveElements_ok (R : Rep d xs) (n : Nat) :
    (∃ d', reserveElements n d = (.throw "std::bad_alloc", d') ∧ Rep d' xs ∧ (∀ i ≤ xs.length, place d' i = place d i) ∧
      d.grants < (d.fo + n) / d.S + 1 ∧ ∀ id, d'.live id = true → d.live id = true) ∨
    ∃ d', reserveElements n d = (.ok (itAdd d'.S d'.fn d'.fo n), d') ∧ Ext d' xs ((d'.fo + n) / d'.S) ∧ d'.fn + (d'.fo + n) / d'.S < d'.msize ∧
      (∀ i ≤ xs.length, place d' i = place d i) ∧ d.grants ≤ d'.grants + ((d.fo + n) / d.S + 1) := by
  have hp := R.pos
  have hfo : d.fo < d.S := by rw [R.fo]; exact Nat.mod_lt _ hp
  unfold reserveElements
  rw [get_b]
  dsimp only
  by_cases h : n > d.S - d.fo - 1
  · rw [if_pos h]
    have hn : (n - (d.S - d.fo - 1) + d.S - 1) / d.S = (d.fo + n) / d.S := by congr 1; omega
    rw [hn]
    rcases reserveBackN_ok R ((d.fo + n) / d.S) with ⟨e, hg⟩ | ⟨d1, a1, R1, a3, a4, a5, a6, a7, a8, a9⟩
    · rw [throw_b e]
      exact Or.inl ⟨d, rfl, R, fun _ _ => rfl, by rw [hg]; exact Nat.succ_pos _, fun _ h => h⟩
    · rw [sb a1, get_b]
      rcases newNodes_ok ((d.fo + n) / d.S) 0 (Ext.zero R1) (by rw [Nat.add_zero]; exact a7) with ⟨m, d', b1, rfl, b3, b4, b5, b6⟩ | ⟨d', b1, b2, b3, b5⟩
      · rw [throw_b b1]
        exact Or.inl ⟨d', rfl, b3, fun i hi => (b4.place R1 i hi).trans (a3 i hi), by omega, fun id h => by rw [← a9]; exact (b6 id h).1⟩
      · rw [sb b1, get_b]
        have hq : (d'.fo + n) / d'.S = (d.fo + n) / d.S := by rw [b3.fo, b3.S, a4, a6]
        refine Or.inr ⟨d', rfl, ?_, ?_, fun i hi => (b3.place R1 i hi).trans (a3 i hi), by omega⟩
        · rw [hq]
          rw [Nat.zero_add] at b2
          exact b2
        · rw [hq, b3.fn, b3.msize]
          exact a7
  · rw [if_neg h]
    have hq : (d.fo + n) / d.S = 0 := Nat.div_eq_of_lt (by omega)
    exact Or.inr ⟨d, rfl, by rw [hq]; exact Ext.zero R, by rw [hq]; exact R.bound, fun _ _ => rfl, Nat.le_add_right _ _⟩

/-- `extend_back`. -/
theorem extendBack_ok (R : Rep d xs) (ys : List α) :
    (∃ d', extendBack ys d = (.throw "std::bad_alloc", d') ∧ Rep d' xs ∧ (∀ i < xs.length, place d' i = place d i) ∧
      d.grants < (d.fo + ys.length) / d.S + 1 ∧ ∀ id, d'.live id = true → d.live id = true) ∨
    ∃ d', extendBack ys d = (.ok (), d') ∧ Rep d' (xs ++ ys) ∧ (∀ i < xs.length, place d' i = place d i) ∧
      d.grants ≤ d'.grants + ((d.fo + ys.length) / d.S + 1) := by
  unfold extendBack
  rcases reserveElements_ok R ys.length with ⟨d', a1, a2, a3, a4, a5⟩ | ⟨d1, a1, E, a3, a4, a5⟩
  · rw [throw_b a1]
    exact Or.inl ⟨d', rfl, a2, fun i hi => a3 i hi.le, a4, a5⟩
  · right
    have R1 := E.rep
    have hp := R1.pos
    have hq : (d1.so + (xs.length + ys.length)) / d1.S = (d1.so + xs.length) / d1.S + (d1.fo + ys.length) / d1.S ∧
        (d1.so + (xs.length + ys.length)) % d1.S = (d1.fo + ys.length) % d1.S := by
      have := Nat.div_add_mod (d1.so + xs.length) d1.S
      rw [← R1.fo] at this
      have e : d1.so + (xs.length + ys.length) = d1.fo + ys.length + d1.S * ((d1.so + xs.length) / d1.S) := by omega
      rw [e, Nat.add_mul_div_left _ _ hp, Nat.add_mul_mod_self_left]
      exact ⟨Nat.add_comm _ _, rfl⟩
    have hK : d1.sn + (d1.so + (xs.length + ys.length)) / d1.S = d1.fn + (d1.fo + ys.length) / d1.S := by rw [hq.1, R1.fn, Nat.add_assoc]
    have hu : upTo d1 xs.length = d1 := by
      unfold upTo
      rw [← R1.fn, ← R1.fo]
    obtain ⟨M, e, r⟩ := fill_ok ys xs (d := d1) (by rw [hu]; exact R1) (by rw [hK]; exact E.nodes) (by rw [hK]; exact E.inj) (by rw [hK]; exact a3)
    rw [← R1.fn, ← R1.fo] at e
    have hit : natIt (itAdd d1.S d1.fn d1.fo ys.length) = .ok (d1.fn + (d1.fo + ys.length) / d1.S, (d1.fo + ys.length) % d1.S) := by
      rw [itAdd_eq hp]
      have e1 : (d1.fn : Int) + ((ys.length : Int) + d1.fo) / d1.S = ((d1.fn + (d1.fo + ys.length) / d1.S : Nat) : Int) := by push_cast; rw [Int.add_comm (ys.length : Int)]
      have e2 : ((ys.length : Int) + d1.fo) % d1.S = (((d1.fo + ys.length) % d1.S : Nat) : Int) := by push_cast; rw [Int.add_comm]
      rw [e1, e2]
      unfold natIt
      rw [if_pos ⟨Int.natCast_nonneg _, Int.natCast_nonneg _⟩]
      rfl
    rw [sb a1, get_b, sb e, lift_b _ hit]
    refine ⟨_, rfl, ?_, fun i hi => a4 i hi.le, a5⟩
    dsimp only
    rw [← hK, ← hq.2]
    rw [List.length_append] at r
    exact r

end Blk
end Pyincpp
