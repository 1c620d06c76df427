/-
C76: the distributions of the samplers for small scalars and ring elements.
-/
import Verif.Model.Samplers
import Verif.Spec.Samplers
import Verif.Lemmas.Main

namespace Verif.Props
open Regev Spec

variable {q : ℕ}

theorem bit_diff (a b : ℕ) (ha : a < 2) (hb : b < 2) : toLong (sub64 a b) = (a : ℤ) - b := by
  interval_cases a <;> interval_cases b <;> decide

/-- **C76.** `ZeroOneScalar` gives the difference of its two random bits, although the difference is computed without sign:
zero for two of the four choices, 1 and -1 for one each, and nothing else. -/
theorem C76_zero_one (hq : 2 < q) (v : ZMod q) :
    ((Finset.range 4).filter fun x => zeroOneScalar x = v).card = zeroOneWeight v ∧
    ∀ x < 4, (zeroOneScalar x : ZMod q) = ((x % 2 : ℕ) : ZMod q) - ((x / 2 : ℕ) : ZMod q) := by
  haveI : Fact (1 < q) := ⟨by omega⟩
  have hval : ∀ x < 4, (zeroOneScalar x : ZMod q) = ((x % 2 : ℕ) : ZMod q) - ((x / 2 : ℕ) : ZMod q) := by
    intro x hx
    unfold zeroOneScalar
    rw [bit_diff _ _ (by omega) (by omega)]
    rw [Int.cast_sub, Int.cast_natCast, Int.cast_natCast]
  refine ⟨?_, hval⟩
  have h0 : (zeroOneScalar 0 : ZMod q) = 0 := by rw [hval 0 (by omega)]; simp
  have h1 : (zeroOneScalar 1 : ZMod q) = 1 := by rw [hval 1 (by omega)]; simp
  have h2 : (zeroOneScalar 2 : ZMod q) = -1 := by rw [hval 2 (by omega)]; simp
  have h3 : (zeroOneScalar 3 : ZMod q) = 0 := by rw [hval 3 (by omega)]; simp
  have hne : (1 : ZMod q) ≠ -1 := by
    intro h
    have h2 : ((2 : ℕ) : ZMod q) = 0 := by
      push_cast
      linear_combination h
    rw [ZMod.natCast_eq_zero_iff] at h2
    exact absurd (Nat.le_of_dvd (by norm_num) h2) (by omega)
  have h10 : (1 : ZMod q) ≠ 0 := one_ne_zero
  have h20 : (-1 : ZMod q) ≠ 0 := neg_ne_zero.2 h10
  rw [show Finset.range 4 = {0, 1, 2, 3} from rfl, Finset.filter_insert, Finset.filter_insert, Finset.filter_insert,
    Finset.filter_singleton, h0, h1, h2, h3]
  unfold zeroOneWeight
  by_cases hv0 : v = 0
  · subst hv0
    rw [if_pos rfl, if_neg h10, if_neg h20, if_pos rfl, if_pos rfl]
    rfl
  · rw [if_neg fun h => hv0 h.symm, if_neg hv0]
    by_cases hv1 : v = 1
    · subst hv1
      rw [if_pos rfl, if_neg (fun h => hne h.symm), if_neg (fun h => hv0 h.symm), if_pos (Or.inl rfl)]
      rfl
    · rw [if_neg fun h => hv1 h.symm]
      by_cases hv2 : v = -1
      · subst hv2
        rw [if_pos rfl, if_neg (fun h => hv0 h.symm), if_pos (Or.inr rfl)]
        rfl
      · rw [if_neg fun h => hv2 h.symm, if_neg (fun h => hv0 h.symm), if_neg (by tauto)]
        rfl

theorem zeroOneLoop_length (k x : ℕ) : (zeroOneLoop k x : List (ZMod q)).length = k := by
  induction k generalizing x with
  | zero => rfl
  | succ k ih => rw [zeroOneLoop, List.length_cons, ih]

theorem zeroOneLoop_head (k x : ℕ) :
    (zeroOneLoop (k + 1) x : List (ZMod q)) = zeroOneScalar (x % 4) :: zeroOneLoop k (x / 4) := by
  rw [zeroOneLoop, zeroOneScalar]
  have h1 : x % 4 % 2 = x % 2 := by omega
  have h2 : x % 4 / 2 = x / 2 % 2 := by omega
  rw [h1, h2]

theorem loop_count (hq : 2 < q) (l : List (ZMod q)) :
    ((Finset.range (4 ^ l.length)).filter fun x => zeroOneLoop l.length x = l).card = (l.map zeroOneWeight).prod := by
  induction l with
  | nil => simp [zeroOneLoop]
  | cons v l ih =>
    rw [List.map_cons, List.prod_cons, ← ih, ← (C76_zero_one hq v).1, ← Finset.card_product]
    refine Finset.card_bij' (fun x _ => (x % 4, x / 4)) (fun p _ => p.1 + 4 * p.2) ?_ ?_ ?_ ?_
    · intro x hx
      rw [Finset.mem_filter, Finset.mem_range, List.length_cons, zeroOneLoop_head, List.cons.injEq, pow_succ] at hx
      rw [Finset.mem_product, Finset.mem_filter, Finset.mem_filter, Finset.mem_range, Finset.mem_range]
      exact ⟨⟨Nat.mod_lt _ (by norm_num), hx.2.1⟩, Nat.div_lt_of_lt_mul (by omega), hx.2.2⟩
    · intro p hp
      rw [Finset.mem_product, Finset.mem_filter, Finset.mem_filter, Finset.mem_range, Finset.mem_range] at hp
      obtain ⟨⟨a1, a2⟩, a3, a4⟩ := hp
      have e1 : (p.1 + 4 * p.2) % 4 = p.1 := by omega
      have e2 : (p.1 + 4 * p.2) / 4 = p.2 := by omega
      rw [Finset.mem_filter, Finset.mem_range, List.length_cons, zeroOneLoop_head, e1, e2, a2, a4, pow_succ]
      exact ⟨by omega, rfl⟩
    · intro x _
      exact Nat.mod_add_div x 4
    · intro p hp
      rw [Finset.mem_product, Finset.mem_filter, Finset.mem_filter, Finset.mem_range, Finset.mem_range] at hp
      obtain ⟨⟨a1, a2⟩, a3, a4⟩ := hp
      have e1 : (p.1 + 4 * p.2) % 4 = p.1 := by omega
      have e2 : (p.1 + 4 * p.2) / 4 = p.2 := by omega
      exact Prod.ext e1 e2

/-- **C76.** The coefficients of a `ZeroOneElement` are independent, each distributed as a `ZeroOneScalar`: of the `4^ell`
choices of the random bits, the number that gives an element is the product over its coefficients. -/
theorem C76_zero_one_element (hq : 2 < q) {ell : ℕ} (e : Elt (ZMod q) ell) :
    ((Finset.range (4 ^ ell)).filter fun x => zeroOneElement ell x = e).card = ∏ i, zeroOneWeight (e.c i) := by
  have h := loop_count hq (List.ofFn e.c)
  rw [List.length_ofFn, List.map_ofFn, List.prod_ofFn] at h
  rw [← show (∏ i, (zeroOneWeight ∘ e.c) i) = ∏ i, zeroOneWeight (e.c i) from rfl, ← h]
  congr 1
  refine Finset.filter_congr fun x _ => ?_
  constructor
  · intro he
    rw [← he]
    apply List.ext_getElem
    · rw [zeroOneLoop_length, List.length_ofFn]
    · intro i h1 h2
      rw [List.getElem_ofFn]
      simp only [zeroOneElement]
      rw [List.getD_eq_getElem?_getD, List.getElem?_eq_getElem h1]
      rfl
  · intro he
    apply Elt.ext
    funext i
    simp only [zeroOneElement]
    rw [he, List.getD_eq_getElem?_getD, List.getElem?_ofFn]
    simp

theorem boundedScalar_cast (n : ℕ) (p : Fin (2 ^ n) × Bool) :
    (boundedScalar n p.1 p.2 : ZMod q) = ((if p.2 then -(p.1.val : ℤ) else p.1.val : ℤ) : ZMod q) := by
  unfold boundedScalar
  rw [Nat.mod_eq_of_lt p.1.2]

/-- **C76.** `BoundedSizeScalar(n)` with `2^(n+1) ≤ q` (for the library: `n ≤ 251`): of the `2^(n+1)` choices of the random
bits, two give zero, one gives each other integer of absolute value less than `2^n`, none any other value. -/
theorem C76_bounded {n : ℕ} (hq : 2 ^ (n + 1) ≤ q) (v : ZMod q) :
    (Finset.univ.filter fun p : Fin (2 ^ n) × Bool => boundedScalar n p.1 p.2 = v).card = boundedWeight n v := by
  haveI : NeZero q := ⟨by have := Nat.two_pow_pos (n + 1); omega⟩
  have hp : 0 < 2 ^ n := Nat.two_pow_pos n
  have hsmall : ∀ a : ℤ, |a| < 2 ^ n → ((a : ZMod q)).valMinAbs = a := by
    intro a ha
    rw [ZMod.valMinAbs_spec]
    have : (2 : ℤ) ^ (n + 1) ≤ q := by exact_mod_cast hq
    rw [pow_succ] at this
    have := abs_lt.1 ha
    exact ⟨rfl, by constructor <;> omega⟩
  have hint : ∀ p : Fin (2 ^ n) × Bool, |(if p.2 then -(p.1.val : ℤ) else p.1.val : ℤ)| < 2 ^ n := by
    intro p
    have h1 : (p.1.val : ℤ) < 2 ^ n := by exact_mod_cast p.1.2
    have h2 : (0 : ℤ) ≤ p.1.val := Int.natCast_nonneg _
    rw [abs_lt]
    cases p.2 <;> simp only [if_true, if_false, Bool.false_eq_true] <;> constructor <;> omega
  have hiff : ∀ p : Fin (2 ^ n) × Bool, boundedScalar n p.1 p.2 = v ↔
      (if p.2 then -(p.1.val : ℤ) else p.1.val : ℤ) = v.valMinAbs := by
    intro p
    rw [boundedScalar_cast]
    constructor
    · intro h; rw [← h, hsmall _ (hint p)]
    · intro h; rw [h, ZMod.coe_valMinAbs]
  rw [Finset.filter_congr fun p _ => hiff p]
  unfold boundedWeight
  by_cases hv : v = 0
  · rw [if_pos hv, hv, ZMod.valMinAbs_zero]
    have : (Finset.univ.filter fun p : Fin (2 ^ n) × Bool => (if p.2 then -(p.1.val : ℤ) else p.1.val : ℤ) = 0) =
        {(⟨0, hp⟩, false), (⟨0, hp⟩, true)} := by
      ext ⟨a, s⟩
      simp only [Finset.mem_filter, Finset.mem_univ, true_and, Finset.mem_insert, Finset.mem_singleton, Prod.mk.injEq,
        Fin.ext_iff]
      cases s <;> simp
    rw [this]
    rfl
  · have hv' : v.valMinAbs ≠ 0 := by rw [Ne, ZMod.valMinAbs_eq_zero]; exact hv
    rw [if_neg hv]
    by_cases hb : |v.valMinAbs| < 2 ^ n
    · rw [if_pos hb, Finset.card_eq_one]
      have hlt : v.valMinAbs.natAbs < 2 ^ n := by
        have : ((v.valMinAbs.natAbs : ℕ) : ℤ) < 2 ^ n := by rw [Int.natCast_natAbs]; exact hb
        exact_mod_cast this
      refine ⟨(⟨v.valMinAbs.natAbs, hlt⟩, decide (v.valMinAbs < 0)), ?_⟩
      ext ⟨a, s⟩
      simp only [Finset.mem_filter, Finset.mem_univ, true_and, Finset.mem_singleton, Prod.mk.injEq, Fin.ext_iff]
      have ha : (0 : ℤ) ≤ a.val := Int.natCast_nonneg _
      cases s
      · simp only [Bool.false_eq_true, if_false]
        constructor
        · intro h; exact ⟨by omega, by simp; omega⟩
        · rintro ⟨h1, h2⟩
          have : ¬ v.valMinAbs < 0 := by simpa using h2
          omega
      · simp only [if_true]
        constructor
        · intro h; exact ⟨by omega, by simp; omega⟩
        · rintro ⟨h1, h2⟩
          have : v.valMinAbs < 0 := by simpa using h2
          omega
    · rw [if_neg hb, Finset.card_eq_zero, Finset.filter_eq_empty_iff]
      intro p _ h
      apply hb
      rw [← h]
      exact hint p

theorem twice {n z z' : ℕ} (hz : z < 2 ^ n) (hz' : z' < 2 ^ n) (h : z + z' = q) :
    1 < (Finset.univ.filter fun p : Fin (2 ^ n) × Bool => boundedScalar n p.1 p.2 = (z : ZMod q)).card := by
  rw [Finset.one_lt_card]
  refine ⟨(⟨z, hz⟩, false), ?_, (⟨z', hz'⟩, true), ?_, ?_⟩
  · rw [Finset.mem_filter, boundedScalar_cast]
    refine ⟨Finset.mem_univ _, ?_⟩
    rw [if_neg Bool.false_ne_true, Int.cast_natCast]
  · rw [Finset.mem_filter, boundedScalar_cast]
    refine ⟨Finset.mem_univ _, ?_⟩
    rw [if_pos rfl, Int.cast_neg, Int.cast_natCast]
    have : ((z + z' : ℕ) : ZMod q) = 0 := by rw [h, ZMod.natCast_self]
    push_cast at this
    linear_combination -this
  · intro h
    exact absurd (Prod.mk.inj h).2 (by decide)

/-- **C76.** The limit is sharp: if `2^(n+1) ≥ q + 2`, some nonzero value is given by two choices of the random bits or
more.  For the library's modulus `n = 251` is allowed and `n = 252` is not. -/
theorem C76_limit {n : ℕ} (hn : q + 2 ≤ 2 ^ (n + 1)) (hq : 1 < q) : ∃ v : ZMod q, v ≠ 0 ∧
    1 < (Finset.univ.filter fun p : Fin (2 ^ n) × Bool => boundedScalar n p.1 p.2 = v).card := by
  rw [pow_succ] at hn
  have h1 : q - q / 2 < 2 ^ n := by omega
  have h2 : q / 2 < 2 ^ n := by omega
  refine ⟨((q / 2 : ℕ) : ZMod q), ?_, twice h2 h1 (by omega)⟩
  rw [Ne, ZMod.natCast_eq_zero_iff]
  intro h
  exact absurd (Nat.le_of_dvd (by omega) h) (by omega)

example : 2 ^ (251 + 1) ≤ Regev.P ∧ Regev.P + 2 ≤ 2 ^ (252 + 1) := by decide +kernel

/-- **C76.** The coefficients of a `BoundedSizeElement(n)` are independent, each distributed as a `BoundedSizeScalar(n)`. -/
theorem C76_bounded_element {n ell : ℕ} (hq : 2 ^ (n + 1) ≤ q) (e : Elt (ZMod q) ell) :
    (Finset.univ.filter fun r : Fin ell → Fin (2 ^ n) × Bool =>
      boundedElement n (fun i => if h : i < ell then ((r ⟨i, h⟩).1.val, (r ⟨i, h⟩).2) else (0, false)) = e).card =
    ∏ i, boundedWeight n (e.c i) := by
  rw [Finset.prod_congr rfl fun i _ => (C76_bounded hq (e.c i)).symm, ← Fintype.card_piFinset]
  congr 1
  ext r
  rw [Finset.mem_filter, Fintype.mem_piFinset]
  constructor
  · rintro ⟨-, h⟩ i
    rw [Finset.mem_filter]
    refine ⟨Finset.mem_univ _, ?_⟩
    have := congrFun (congrArg Elt.c h) i
    simpa [boundedElement] using this
  · intro h
    refine ⟨Finset.mem_univ _, ?_⟩
    apply Elt.ext
    funext i
    have := (Finset.mem_filter.1 (h i)).2
    simpa [boundedElement] using this

/-- the hypotheses, for the library's modulus, and one value with each weight -/
example : 2 < Regev.P ∧ 2 ^ (113 + 1) ≤ Regev.P ∧ zeroOneWeight (0 : ZMod 7) = 2 ∧ zeroOneWeight (-1 : ZMod 7) = 1 ∧
    zeroOneWeight (2 : ZMod 7) = 0 ∧ boundedWeight 1 (0 : ZMod 7) = 2 ∧ boundedWeight 1 (1 : ZMod 7) = 1 ∧
    boundedWeight 1 (2 : ZMod 7) = 0 := by
  refine ⟨by decide +kernel, by decide +kernel, by decide, by decide, by decide, by decide, by decide, by decide⟩

end Verif.Props
