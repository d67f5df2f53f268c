import Verif.Props.IntMore
import Mathlib.Data.Set.Card
import Mathlib.Data.Fintype.BigOperators
import Mathlib.Data.Fintype.Pi

/-! # C80: the distribution of `random(digits)` -/

namespace Pyincpp

/-- `n` digits as draws of the source. -/
def drawOf {n : ℕ} (d : Fin n → Fin 10) (i : ℕ) : ℤ := if h : i < n then ((d ⟨i, h⟩ : ℕ) : ℤ) else 0

theorem random_chunks (len n : ℕ) (draw : ℕ → ℤ) (most : ℤ) : BInt.random len draw most ((n + 1 : ℕ) : ℤ) =
    .ok ⟨1, (List.range (n + 1)).map (fun i => if i = n ∧ draw n = 0 then most else draw i)⟩ := by
  unfold BInt.random
  rw [if_neg (by push_cast; omega)]
  simp only [show ((n + 1 : ℕ) : ℤ) ≠ -1 by push_cast; omega, if_false, Int.toNat_natCast, Nat.add_one_sub_one]
  rw [if_neg (by omega)]
  congr 2
  have hl : ((List.range (n + 1)).map draw).getLast? = some (draw n) := by
    rw [List.range_succ]; simp
  rw [hl]
  by_cases h : draw n = 0
  · rw [if_pos ⟨by omega, by rw [h]⟩]
    apply List.ext_getElem (by simp)
    intro i h1 h2
    rw [List.getElem_set]
    simp only [List.getElem_map, List.getElem_range]
    by_cases hi : n = i
    · rw [if_pos hi, if_pos ⟨hi.symm, h⟩]
    · rw [if_neg hi, if_neg (fun hh => hi hh.1.symm)]
  · rw [if_neg (fun hh => h (Option.some.inj hh.2))]
    apply List.map_congr_left
    intro i _
    rw [if_neg (fun hh => h hh.2)]

/-- C80: with an ideal source, i.e. all sequences of digits and all replacements of a leading zero being equally likely, all numbers of
`n` digits are equally likely: each is the result of ten of the `9 * 10 ^ n` outcomes. Missing: the source is seeded with 32 bits
(`C80_not`). -/
theorem C80_uniform_partial (len n : ℕ) (z : ℤ) (h1 : 10 ^ n ≤ z) (h2 : z < 10 ^ (n + 1)) :
    Set.ncard {p : (Fin (n + 1) → Fin 10) × Fin 9 |
      BInt.random len (drawOf p.1) ((p.2 : ℕ) + 1) ((n + 1 : ℕ) : ℤ) = .ok (enc z)} = 10 := by
  have hpos : 0 < z := lt_of_lt_of_le (by positivity) h1
  obtain ⟨m, rfl⟩ : ∃ m : ℕ, z = m := ⟨z.toNat, by omega⟩
  have h1' : 10 ^ n ≤ m := by exact_mod_cast h1
  have h2' : m < 10 ^ (n + 1) := by exact_mod_cast h2
  have hm : m ≠ 0 := by omega
  have hlen : (Nat.digits 10 m).length = n + 1 := by
    rw [Nat.length_digits 10 m (by norm_num) hm, Nat.log_eq_of_pow_le_of_lt_pow h1' h2']
  have hd : ∀ i : Fin (n + 1), (Nat.digits 10 m)[(i : ℕ)]'(by omega) < 10 := fun i =>
    Nat.digits_lt_base (by norm_num) (List.getElem_mem _)
  let D : Fin (n + 1) → Fin 10 := fun i => ⟨(Nat.digits 10 m)[(i : ℕ)]'(by omega), hd i⟩
  have hne : Nat.digits 10 m ≠ [] := by simpa [Nat.digits_eq_nil_iff_eq_zero] using hm
  have htop : (D (Fin.last n) : ℕ) ≠ 0 := by
    have h := Nat.getLast_digit_ne_zero 10 hm
    have : (Nat.digits 10 m).getLast hne = (Nat.digits 10 m)[n]'(by omega) := by
      rw [List.getLast_eq_getElem]; simp [hlen]
    rw [this] at h
    exact h
  have henc : enc (m : ℤ) = ⟨1, (List.range (n + 1)).map (drawOf D)⟩ := by
    unfold enc
    rw [Int.sign_eq_one_of_pos hpos]
    congr 1
    apply List.ext_getElem (by simp [hlen])
    intro i hi hi'
    have : i < n + 1 := by simpa using hi'
    simp [drawOf, D, this]
  have key : ∀ p : (Fin (n + 1) → Fin 10) × Fin 9,
      (BInt.random len (drawOf p.1) ((p.2 : ℕ) + 1) ((n + 1 : ℕ) : ℤ) = .ok (enc (m : ℤ))) ↔
      (p.1 = D ∨ p = (Function.update D (Fin.last n) 0, ⟨(D (Fin.last n) : ℕ) - 1, by have := (D (Fin.last n)).2; omega⟩)) := by
    rintro ⟨d, r⟩
    rw [random_chunks, henc]
    simp only [Res.ok.injEq, BInt.mk.injEq, true_and, List.map_inj_left, List.mem_range]
    have hlast : drawOf d n = ((d (Fin.last n) : ℕ) : ℤ) := by simp [drawOf, Fin.last]
    have hdr : ∀ (e : Fin (n + 1) → Fin 10) (i : Fin (n + 1)), drawOf e i = ((e i : ℕ) : ℤ) := fun e i => by
      unfold drawOf; rw [dif_pos i.2]
    have step : (∀ i < n + 1, (if i = n ∧ drawOf d n = 0 then (((r : ℕ) : ℤ) + 1) else drawOf d i) = drawOf D i) ↔
        ∀ i : Fin (n + 1), (if i = Fin.last n ∧ (d (Fin.last n) : ℕ) = 0 then (r : ℕ) + 1 else (d i : ℕ)) = (D i : ℕ) := by
      constructor
      · intro h i
        have := h i i.2
        rw [hlast, hdr, hdr] at this
        by_cases hc : i = Fin.last n ∧ (d (Fin.last n) : ℕ) = 0
        · rw [if_pos hc]
          rw [if_pos ⟨by rw [hc.1]; rfl, by rw [hc.2]; rfl⟩] at this
          exact_mod_cast this
        · rw [if_neg hc]
          rw [if_neg (by
            rintro ⟨e1, e2⟩
            exact hc ⟨Fin.ext e1, by exact_mod_cast e2⟩)] at this
          exact_mod_cast this
      · intro h i hi
        have := h ⟨i, hi⟩
        rw [hlast, hdr d ⟨i, hi⟩, hdr D ⟨i, hi⟩, ← this]
        by_cases hc : (⟨i, hi⟩ : Fin (n + 1)) = Fin.last n ∧ (d (Fin.last n) : ℕ) = 0
        · rw [if_pos hc, if_pos ⟨congrArg Fin.val hc.1, by rw [hc.2]; rfl⟩]; push_cast; rfl
        · rw [if_neg hc, if_neg (by
            rintro ⟨e1, e2⟩
            exact hc ⟨Fin.ext e1, by exact_mod_cast e2⟩)]
    rw [step]
    constructor
    · intro h
      by_cases h0 : (d (Fin.last n) : ℕ) = 0
      · right
        have hl := h (Fin.last n)
        rw [if_pos ⟨rfl, h0⟩] at hl
        refine Prod.ext (funext fun i => ?_) (Fin.ext ?_)
        · by_cases hi : i = Fin.last n
          · subst hi; simp only [Function.update_self]; exact Fin.ext h0
          · have := h i
            rw [if_neg (fun hh => hi hh.1)] at this
            simp only [Function.update_of_ne hi]
            exact Fin.ext this
        · simp only; omega
      · left
        funext i
        have := h i
        rw [if_neg (fun hh => h0 hh.2)] at this
        exact Fin.ext this
    · rintro (h | h) i
      · rw [show d = D from h, if_neg (fun hh => htop hh.2)]
      · rw [Prod.ext_iff] at h
        obtain ⟨e1, e2⟩ := h
        simp only at e1 e2
        subst e1 e2
        by_cases hi : i = Fin.last n
        · subst hi
          rw [if_pos ⟨rfl, by simp⟩]
          simp only
          omega
        · rw [if_neg (fun hh => hi hh.1), Function.update_of_ne hi]
  have hset : {p : (Fin (n + 1) → Fin 10) × Fin 9 |
      BInt.random len (drawOf p.1) ((p.2 : ℕ) + 1) ((n + 1 : ℕ) : ℤ) = .ok (enc (m : ℤ))} =
      Set.range (fun r : Fin 9 => (D, r)) ∪
        {(Function.update D (Fin.last n) 0, ⟨(D (Fin.last n) : ℕ) - 1, by have := (D (Fin.last n)).2; omega⟩)} := by
    ext p
    rw [Set.mem_ofPred_eq, key p, Set.mem_union, Set.mem_singleton_iff]
    constructor
    · rintro (h | h)
      · exact Or.inl ⟨p.2, Prod.ext h.symm rfl⟩
      · exact Or.inr h
    · rintro (⟨r, rfl⟩ | h)
      · exact Or.inl rfl
      · exact Or.inr h
  rw [hset, Set.ncard_union_eq, Set.ncard_singleton, ← Set.image_univ, Set.ncard_image_of_injective _ (Prod.mk_right_injective D),
    Set.ncard_univ, Nat.card_eq_fintype_card, Fintype.card_fin]
  rw [Set.disjoint_singleton_right]
  rintro ⟨r, h⟩
  have := congrFun (congrArg Prod.fst h) (Fin.last n)
  simp only [Function.update_self] at this
  exact htop (by rw [this]; rfl)

example : (10 : ℤ) ^ 2 ≤ 305 ∧ (305 : ℤ) < 10 ^ 3 := by norm_num

/-- C80 fails: the generator is seeded with 32 bits, so that from ten digits on there are numbers that `random` never returns,
whatever generator and distributions are made of the seed. -/
theorem C80_not (draw : UInt32 → ℕ → ℤ) (most : UInt32 → ℤ) (len : ℕ) (n : ℕ) (hn : 9 ≤ n) :
    ∃ z : ℤ, 10 ^ n ≤ z ∧ z < 10 ^ (n + 1) ∧
      ∀ seed, BInt.random len (draw seed) (most seed) ((n + 1 : ℕ) : ℤ) ≠ .ok (enc z) := by
  by_contra hc
  push Not at hc
  have hex : ∀ z : Finset.Ico (10 ^ n : ℕ) (10 ^ (n + 1)), ∃ seed : UInt32,
      BInt.random len (draw seed) (most seed) ((n + 1 : ℕ) : ℤ) = .ok (enc ((z : ℕ) : ℤ)) := by
    rintro ⟨z, hz⟩
    rw [Finset.mem_Ico] at hz
    exact hc z (by exact_mod_cast hz.1) (by exact_mod_cast hz.2)
  choose f hf using hex
  have hinj : Function.Injective f := by
    intro a b e
    have h1 := hf a
    rw [e, hf b] at h1
    have := enc_injective (Res.ok.inj h1)
    exact Subtype.ext (by exact_mod_cast this.symm)
  let g : Finset.Ico (10 ^ n : ℕ) (10 ^ (n + 1)) → Fin (2 ^ 32) := fun z => ⟨(f z).toNat, (f z).toNat_lt⟩
  have hg : Function.Injective g := fun a b e => hinj (UInt32.toNat_inj.mp (congrArg Fin.val e))
  have hcard := Fintype.card_le_of_injective g hg
  rw [Fintype.card_coe, Nat.card_Ico, Fintype.card_fin, pow_succ] at hcard
  have : 10 ^ 9 ≤ 10 ^ n := Nat.pow_le_pow_right (by norm_num) hn
  generalize 10 ^ n = q at hcard this
  norm_num at this hcard
  omega

/-- C80: up to nine digits the seeds would suffice: some source gives every number. -/
theorem C80_small_partial (n : ℕ) (hn : n ≤ 8) : ∃ (draw : UInt32 → ℕ → ℤ) (most : UInt32 → ℤ),
    (∀ s i, 0 ≤ draw s i ∧ draw s i ≤ 9) ∧ (∀ s, 1 ≤ most s ∧ most s ≤ 9) ∧ ∀ z : ℤ, 10 ^ n ≤ z → z < 10 ^ (n + 1) →
      ∃ seed, BInt.random 0 (draw seed) (most seed) ((n + 1 : ℕ) : ℤ) = .ok (enc z) := by
  refine ⟨fun s i => ((Nat.digits 10 s.toNat).getD i 0 : ℕ), fun _ => 1, ?_, fun _ => by norm_num, ?_⟩
  · intro s i
    refine ⟨Int.natCast_nonneg _, ?_⟩
    by_cases h : i < (Nat.digits 10 s.toNat).length
    · have := Nat.digits_lt_base (b := 10) (by norm_num) (List.getElem_mem h)
      simp only [List.getD_eq_getElem?_getD, List.getElem?_eq_getElem h, Option.getD_some]
      omega
    · simp [List.getD_eq_getElem?_getD, List.getElem?_eq_none (not_lt.mp h)]
  · intro z h1 h2
    have hpos : 0 < z := lt_of_lt_of_le (by positivity) h1
    obtain ⟨m, rfl⟩ : ∃ m : ℕ, z = m := ⟨z.toNat, by omega⟩
    have h1' : 10 ^ n ≤ m := by exact_mod_cast h1
    have h2' : m < 10 ^ (n + 1) := by exact_mod_cast h2
    have hm : m ≠ 0 := by omega
    have hlen : (Nat.digits 10 m).length = n + 1 := by
      rw [Nat.length_digits 10 m (by norm_num) hm, Nat.log_eq_of_pow_le_of_lt_pow h1' h2']
    have hb : m < 2 ^ 32 := by
      have : 10 ^ (n + 1) ≤ 10 ^ 9 := Nat.pow_le_pow_right (by norm_num) (by omega)
      generalize 10 ^ (n + 1) = q at *
      omega
    have hne : Nat.digits 10 m ≠ [] := by simpa [Nat.digits_eq_nil_iff_eq_zero] using hm
    have htop : (Nat.digits 10 m)[n]'(by omega) ≠ 0 := by
      have h := Nat.getLast_digit_ne_zero 10 hm
      have : (Nat.digits 10 m).getLast hne = (Nat.digits 10 m)[n]'(by omega) := by
        rw [List.getLast_eq_getElem]; simp [hlen]
      rwa [this] at h
    refine ⟨UInt32.ofNat m, ?_⟩
    rw [random_chunks]
    simp only [UInt32.toNat_ofNat_of_lt' hb]
    unfold enc
    rw [Int.sign_eq_one_of_pos hpos]
    congr 2
    apply List.ext_getElem (by simp [hlen])
    intro i hi hi'
    have : i < n + 1 := by simpa using hi
    have hn' : (Nat.digits 10 m).getD n 0 = (Nat.digits 10 m)[n]'(by omega) := by
      simp [List.getD_eq_getElem?_getD, List.getElem?_eq_getElem (show n < (Nat.digits 10 m).length by omega)]
    simp only [List.getElem_map, List.getElem_range, Int.natAbs_natCast]
    rw [hn', if_neg (fun hh => htop (by exact_mod_cast hh.2))]
    simp [List.getD_eq_getElem?_getD, List.getElem?_eq_getElem (show i < (Nat.digits 10 m).length by omega)]

end Pyincpp
