import Verif.Proof.RbTreePos
import Verif.Model.Dict

/-! # The trees under `std::set` and `std::map`: finding and erasing -/

namespace Pyincpp
namespace BT

variable {α κ : Type} (key : α → κ) (c : κ → κ → Bool)

/-- `Tree.find` and `PDict.mapFind`, for any key. -/
def findK (k : κ) : List α → Option Nat
  | [] => none
  | y :: ys =>
    if c (key y) k then (findK k ys).map (· + 1)
    else if c k (key y) then none
    else some 0

/-- `Tree.erase` and `PDict.mapErase`, for any key. -/
def eraseK (k : κ) : List α → List α × Nat
  | [] => ([], 0)
  | y :: ys =>
    if c (key y) k then (y :: (eraseK k ys).1, (eraseK k ys).2)
    else if c k (key y) then (y :: ys, 0)
    else (ys, 1)

theorem findK_id (lt : α → α → Bool) (x : α) : ∀ L, findK id lt x L = Tree.find lt x L
  | [] => rfl
  | y :: ys => by rw [findK, Tree.find, findK_id lt x ys]; rfl

theorem eraseK_id (lt : α → α → Bool) (x : α) : ∀ L, eraseK id lt x L = Tree.erase lt x L
  | [] => rfl
  | y :: ys => by rw [eraseK, Tree.erase, eraseK_id lt x ys]; rfl

theorem findK_fst {K V : Type} (lt : K → K → Bool) (k : K) : ∀ L : List (K × V), findK Prod.fst lt k L = PDict.mapFind lt k L
  | [] => rfl
  | y :: ys => by rw [findK, PDict.mapFind, findK_fst lt k ys]

theorem eraseK_fst {K V : Type} (lt : K → K → Bool) (k : K) : ∀ L : List (K × V), eraseK Prod.fst lt k L = PDict.mapErase lt k L
  | [] => rfl
  | y :: ys => by rw [eraseK, PDict.mapErase, eraseK_fst lt k ys]

variable {key c}

theorem findK_split {k : κ} : ∀ {A C : List α}, (∀ a ∈ A, c (key a) k = true) → (∀ b ∈ C, c (key b) k = false) →
    findK key c k (A ++ C) = match C with
      | [] => none
      | x :: _ => if c k (key x) then none else some A.length
  | [], [], _, _ => rfl
  | [], x :: C, _, h => by simp [findK, h x (by simp)]
  | a :: A, C, h, h' => by
    have ih := findK_split (A := A) (fun a ha => h a (by simp [ha])) h'
    rw [List.cons_append, findK, h a (by simp), if_pos rfl, ih]
    cases C with
    | nil => rfl
    | cons x C => dsimp only; split <;> rfl

theorem eraseK_split {k : κ} : ∀ {A M C : List α}, M.length ≤ 1 → (∀ a ∈ A, c (key a) k = true) →
    (∀ a ∈ M, c (key a) k = false ∧ c k (key a) = false) → (∀ a ∈ C, c (key a) k = false ∧ c k (key a) = true) →
    eraseK key c k (A ++ (M ++ C)) = (A ++ C, M.length)
  | [], [], [], _, _, _, _ => rfl
  | [], [], x :: C, _, _, _, h => by simp [eraseK, h x (by simp)]
  | [], [m], C, _, _, h, _ => by simp [eraseK, h m (by simp)]
  | [], m :: m' :: M, C, hl, _, _, _ => by simp at hl
  | a :: A, M, C, hl, h, h', h'' => by
    have ih := eraseK_split (A := A) hl (fun a ha => h a (by simp [ha])) h' h''
    rw [List.cons_append, eraseK, h a (by simp), if_pos rfl, ih]; rfl

theorem split3 (W : StrictWeak c) (k : κ) {L : List α} (h : Increasing (byKey key c) L) : ∃ A M C, L = A ++ (M ++ C) ∧ M.length ≤ 1 ∧
    (∀ a ∈ A, c (key a) k = true) ∧ (∀ a ∈ M, c (key a) k = false ∧ c k (key a) = false) ∧ (∀ a ∈ C, c (key a) k = false ∧ c k (key a) = true) := by
  obtain ⟨A, R, e, hA, hR⟩ := mono_split (p := fun a => !c (key a) k) (L := L) (List.Pairwise.imp (fun {a b} hab hk => by
    cases hb : c (key b) k with
    | false => rfl
    | true =>
      have : c (key a) k = true := W.trans _ _ _ hab hb
      rw [this] at hk; exact nomatch hk) h)
  subst e
  have hR' := (List.pairwise_append.mp h).2.1
  obtain ⟨M, C, e, hM, hC⟩ := mono_split (p := fun a => c k (key a)) (L := R) (List.Pairwise.imp (fun {a b} hab hk => W.trans _ _ _ hk hab) hR')
  subst e
  have hN : ∀ a ∈ M ++ C, c (key a) k = false := fun a ha => by simpa using hR a ha
  refine ⟨A, M, C, rfl, ?_, fun a ha => by simpa using hA a ha, fun a ha => ⟨hN a (by simp [ha]), hM a ha⟩, fun a ha => ⟨hN a (by simp [ha]), hC a ha⟩⟩
  rcases M with _ | ⟨m, _ | ⟨m', M⟩⟩
  · simp
  · simp
  · have q : c (key m) (key m') = true := (List.pairwise_cons.mp (List.pairwise_append.mp hR').1).1 m' (by simp)
    have := W.incomp (key m) k (key m') (hN m (by simp)) (hM m (by simp)) (hM m' (by simp)) (hN m' (by simp))
    rw [this.1] at q; exact nomatch q

theorem find_ok (W : StrictWeak c) (k : κ) {t : BT α} (hI : Increasing (byKey key c) t.elems) (n : Nat) :
    ∃ d, d ≤ t.height + 1 ∧ find key (Ans c) k t n = (.ok ((findK key c k t.elems).getD t.size), n + d) ∧
      ∀ j, findK key c k t.elems = some j → j < t.size := by
  obtain ⟨A, M, C, e, hl, hA, hM, hC⟩ := split3 W k hI
  obtain ⟨s, d, b1, b2, eb, hs⟩ := bound_ok key (p := fun x => c x k) (go := fun x => ask (Ans c) x k) (fun _ _ => rfl) t 0 t.size n
  have hN : ∀ b ∈ M ++ C, c (key b) k = false := by
    intro b hb
    rcases List.mem_append.mp hb with h | h
    · exact (hM b h).1
    · exact (hC b h).1
  have hs := hs A (M ++ C) e hA hN
  have hf := findK_split (key := key) (c := c) (k := k) hA hN
  rw [← e] at hf
  have hsz : t.size = A.length + (M ++ C).length := by unfold size; rw [e, List.length_append]
  have eb : lowerBound key (Ans c) k t 0 t.size n = (.ok s, n + d) := by
    rw [lowerBound, eb]
    split
    · next h => rw [← h]
    · rw [Nat.zero_add]
  cases hMC : M ++ C with
  | nil =>
    rw [hMC] at hf hsz
    rw [List.length_nil] at hsz
    refine ⟨d, by omega, ?_, fun j hj => by rw [hf] at hj; exact nomatch hj⟩
    rw [find, mb eb, if_pos (by omega), hf]; rfl
  | cons x R =>
    rw [hMC] at hf hsz e
    rw [List.length_cons] at hsz
    have hx : t.elems[s]? = some x := by rw [e, hs]; simp
    dsimp only at hf
    cases hc : c k (key x) with
    | true =>
      rw [hc, if_pos rfl] at hf
      refine ⟨d + 1, by omega, ?_, fun j hj => by rw [hf] at hj; exact nomatch hj⟩
      rw [find, mb eb, if_neg (by omega), mb (keyAt_ok key hx _), mb (ask_ans _ _ _ _), hc, if_pos rfl, hf]; rfl
    | false =>
      rw [hc, if_neg (by simp)] at hf
      refine ⟨d + 1, by omega, ?_, fun j hj => by rw [hf] at hj; rw [← Option.some.inj hj]; omega⟩
      rw [find, mb eb, if_neg (by omega), mb (keyAt_ok key hx _), mb (ask_ans _ _ _ _), hc, if_neg (by simp), hf, hs]; rfl

theorem eraseLoop_ok {B : Balancer α} (hB : B.Keeps) : ∀ (n : Nat) {lo : Nat} {t : BT α}, lo + n ≤ t.size → RB t →
    (eraseLoop B n lo t).elems = t.elems.take lo ++ t.elems.drop (lo + n) ∧ RB (eraseLoop B n lo t)
  | 0, lo, t, _, hR => ⟨by rw [Nat.add_zero, List.take_append_drop]; rfl, hR⟩
  | n + 1, lo, t, h, hR => by
    obtain ⟨e1, r1⟩ := hB.del t lo (by omega)
    have hsz : (B.del t lo).size + 1 = t.size := by
      unfold size; rw [e1, List.length_eraseIdx_of_lt (by unfold size at h; omega)]; unfold size at h; omega
    obtain ⟨e2, r2⟩ := eraseLoop_ok hB n (lo := lo) (t := B.del t lo) (by omega) r1
    refine ⟨?_, r2⟩
    rw [eraseLoop, e2, e1, List.eraseIdx_eq_take_drop_succ]
    have hlo : lo ≤ t.elems.length := by unfold size at h; omega
    rw [List.take_append_of_le_length (by rw [List.length_take]; omega), List.take_take, Nat.min_self,
      List.drop_append, List.drop_eq_nil_of_le (by rw [List.length_take]; omega), List.nil_append, List.length_take, Nat.min_eq_left hlo,
      List.drop_drop, show lo + 1 + (lo + n - lo) = lo + (n + 1) by omega]

theorem erase_ok {B : Balancer α} (hB : B.Keeps) (W : StrictWeak c) (k : κ) {t : BT α} (hR : RB t) (hI : Increasing (byKey key c) t.elems) (n : Nat) :
    ∃ t' d, d ≤ 2 * t.height ∧ erase key (Ans c) B k t n = (.ok (t', (eraseK key c k t.elems).2), n + d) ∧
      t'.elems = (eraseK key c k t.elems).1 ∧ RB t' ∧ Increasing (byKey key c) t'.elems := by
  obtain ⟨A, M, C, e, hl, hA, hM, hC⟩ := split3 W k hI
  obtain ⟨lo, hi, d, b1, b2, b3, eb, hs⟩ := equalRange_ok key c k t 0 t.size n
  obtain ⟨hlo, hhi⟩ := hs A M C e hA hM hC
  have he := eraseK_split (key := key) (c := c) (k := k) hl hA hM hC
  rw [← e] at he
  have hsz : t.size = A.length + (M.length + C.length) := by unfold size; rw [e, List.length_append, List.length_append]
  have eb : equalRange key (Ans c) k t 0 t.size n = (.ok (lo, hi), n + d) := by
    have q : ∀ s, (if s = t.size then t.size else 0 + s) = s := by
      intro s; split
      · next h => rw [h]
      · rw [Nat.zero_add]
    rw [eb, q, q]
  have hI' : Increasing (byKey key c) (A ++ C) := by
    rw [e] at hI
    refine List.Pairwise.sublist ?_ hI
    exact List.Sublist.append (List.Sublist.refl _) (List.sublist_append_right _ _)
  by_cases hall : lo = 0 ∧ hi = t.size
  · have hA0 : A = [] := List.eq_nil_of_length_eq_zero (by omega)
    have hC0 : C = [] := List.eq_nil_of_length_eq_zero (by omega)
    refine ⟨leaf, d, b3, ?_, ?_, rb_leaf, List.Pairwise.nil⟩
    · rw [erase, mb eb]
      show (if hi < lo then Meth.lift (.ub .badRange) else _ : Meth Nat (BT α × Nat)) (n + d) = _
      rw [if_neg (by omega), if_pos hall, he, show t.size = M.length by omega]; rfl
    · rw [he, hA0, hC0]; rfl
  · obtain ⟨e2, r2⟩ := eraseLoop_ok hB (hi - lo) (lo := lo) (t := t) (by omega) hR
    have e3 : (eraseLoop B (hi - lo) lo t).elems = A ++ C := by
      rw [e2, show lo + (hi - lo) = hi by omega, e, hlo, hhi, List.take_left, ← List.append_assoc, List.drop_append_of_le_length (by simp),
        List.drop_eq_nil_of_le (by simp), List.nil_append]
    refine ⟨eraseLoop B (hi - lo) lo t, d, b3, ?_, by rw [e3, he], r2, by rw [e3]; exact hI'⟩
    rw [erase, mb eb]
    show (if hi < lo then Meth.lift (.ub .badRange) else _ : Meth Nat (BT α × Nat)) (n + d) = _
    have : (eraseLoop B (hi - lo) lo t).size = A.length + C.length := by unfold size; rw [e3, List.length_append]
    rw [if_neg (by omega), if_neg hall, he, this, show t.size - (A.length + C.length) = M.length by omega]; rfl

end BT
end Pyincpp
