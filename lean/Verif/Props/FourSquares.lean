/-
Properties C30-C31: sums of two and of four squares.
-/
import Verif.Lemmas.FourSquares2
import Mathlib.NumberTheory.SumFourSquares
import Mathlib.Tactic.NormNum.Prime

namespace Verif.Props
open Verif Verif.Spec Verif.FourSq

/-- **C30.** For every prime `p = 1 mod 4`, `decomposeProbablePrime(p)` returns `a`, `b` with
`a² + b² = p`; or it reports failure by `(0,0)`, which is possible only when `p = 1 mod 8`,
`p ≥ 281` and every prime below 281 is a square modulo `p`. -/
theorem C30_two_squares (single : ℕ → Bool) (p : ℕ) (hp : p.Prime) (h4 : p % 4 = 1) :
    (∃ a b : ℕ, decomposeProbablePrime single p = .ok ((a : ℤ), (b : ℤ)) ∧ a ^ 2 + b ^ 2 = p) ∨
    (decomposeProbablePrime single p = .ok (0, 0) ∧ p % 8 = 1 ∧ 281 ≤ p ∧
      ∀ q : ℕ, q.Prime → q < 281 → IsSquare (q : ZMod p)) := by
  rcases dpp_prime single hp h4 with ⟨y, z, h1, h2, -⟩ | ⟨h1, h2, h3, h5⟩
  · exact Or.inl ⟨y, z, h1, by rw [pow_two, pow_two, h2]⟩
  · right
    refine ⟨h1, h2, h3, ?_⟩
    intro q hq hlt
    have hmem : q ∈ smallPrimes := by
      have : ∀ q : Fin 281, q.1 ∈ smallPrimes ∨ (∃ d : Fin 20, 1 < d.1 ∧ d.1 < q.1 ∧ q.1 % d.1 = 0) ∨
          q.1 ≤ 1 := by decide +kernel
      rcases this ⟨q, hlt⟩ with h | ⟨d, hd1, hd2, hd3⟩ | h
      · exact h
      · exfalso
        rcases (Nat.dvd_prime hq).1 (Nat.dvd_of_mod_eq_zero hd3) with h | h
        · omega
        · simp only [h] at hd2; omega
      · have := hq.two_le; simp only at h; omega
    haveI := Fact.mk hp
    have := h5 q hmem
    rw [← _root_.jacobiSym.legendreSym.to_jacobiSym] at this
    by_contra hns
    exact this ((legendreSym.eq_neg_one_iff' p).2 hns)

/-- **C30.** The small and the `5 mod 8` primes never fail. -/
theorem C30_no_failure (single : ℕ → Bool) (p : ℕ) (hp : p.Prime) (h4 : p % 4 = 1)
    (h : p % 8 = 5 ∨ p < 281) :
    ∃ a b : ℕ, decomposeProbablePrime single p = .ok ((a : ℤ), (b : ℤ)) ∧ a ^ 2 + b ^ 2 = p := by
  rcases C30_two_squares single p hp h4 with h1 | ⟨-, h1, h2, -⟩
  · exact h1
  · omega

/-- **C30.** Anything that is not 1 modulo 4 throws. -/
theorem C30_throws (single : ℕ → Bool) (p : ℤ) (h : p % 4 ≠ 1) :
    decomposeProbablePrime single p = .throw := by
  unfold decomposeProbablePrime
  rw [if_pos h]

/-- **C30.** Odd squares are recognized (the residue filters never reject a square) and
reported as `(0, k)`. -/
theorem C30_square (single : ℕ → Bool) (k : ℕ) (hk : k % 2 = 1) :
    decomposeProbablePrime single ((k * k : ℕ) : ℤ) = .ok (0, (k : ℤ)) := by
  have hm : maybeSquare single (k * k) = true := by
    unfold maybeSquare
    split
    · simp [Nat.sqrt_eq]
    · have h1 : inSquaresModMagic (k * k % magicN) = true := by
        unfold inSquaresModMagic
        rw [List.any_eq_true]
        obtain ⟨r, hr⟩ : ∃ r, r = k % magicN := ⟨_, rfl⟩
        have hlt : r < magicN := by rw [hr]; exact Nat.mod_lt _ (by decide)
        have hkr : k * k % magicN = r * r % magicN := by rw [Nat.mul_mod, ← hr]
        by_cases h : r ≤ magicN / 2
        · exact ⟨r, by rw [List.mem_range]; omega, by rw [hkr]; simp⟩
        · refine ⟨magicN - r, by rw [List.mem_range]; unfold magicN at *; omega, ?_⟩
          rw [hkr]
          simp only [beq_iff_eq]
          have e : (magicN - r) * (magicN - r) + 2 * r * magicN = r * r + magicN * magicN := by
            obtain ⟨s, hs⟩ : ∃ s, magicN = r + s := ⟨magicN - r, by omega⟩
            rw [hs, Nat.add_sub_cancel_left]; ring
          have h2 : ((magicN - r) * (magicN - r) + 2 * r * magicN) % magicN =
              (magicN - r) * (magicN - r) % magicN := Nat.add_mul_mod_self_right ..
          have h3 : (r * r + magicN * magicN) % magicN = r * r % magicN :=
            Nat.add_mul_mod_self_right ..
          rw [← h2, e, h3]
      have h2 : (tenPrimes.any fun p => jacobiSym ((k * k : ℕ) : ℤ) p == -1) = false := by
        rw [List.any_eq_false]
        intro p _
        simp only [beq_iff_eq]
        intro h
        rw [Nat.cast_mul, jacobiSym.mul_left] at h
        have := mul_self_nonneg (jacobiSym (k : ℤ) p)
        omega
      rw [h1, h2]
      rfl
  have hi : iunit single (k * k) = (k, true) := by
    unfold iunit
    rw [if_pos ⟨hm, by rw [Nat.sqrt_eq]⟩, Nat.sqrt_eq]
  unfold decomposeProbablePrime
  have h4 : k * k % 4 = 1 := by
    have := Nat.mul_mod k k 4
    have h5 : k % 4 = 1 ∨ k % 4 = 3 := by omega
    rcases h5 with h5 | h5 <;> rw [h5] at this <;> omega
  rw [if_neg (by omega), if_neg (by omega)]
  simp only [Int.toNat_natCast, hi]
  rfl

/-- Non-vacuity: a prime of every kind, and a big one. -/
example (single : ℕ → Bool) : ∃ a b : ℕ,
    decomposeProbablePrime single ((13 : ℕ) : ℤ) = .ok ((a : ℤ), (b : ℤ)) ∧ a ^ 2 + b ^ 2 = 13 :=
  C30_no_failure single 13 (by norm_num) (by norm_num) (by norm_num)
example (single : ℕ → Bool) : ∃ a b : ℕ,
    decomposeProbablePrime single ((1013 : ℕ) : ℤ) = .ok ((a : ℤ), (b : ℤ)) ∧
      a ^ 2 + b ^ 2 = 1013 :=
  C30_no_failure single 1013 (by norm_num) (by norm_num) (by norm_num)

/-- **C31.** Given a primality test that accepts only primes, `decompose4(n)` for `n ≥ 0`
neither throws nor does anything undefined: it returns four non-negative integers whose squares
add up to `n`, or the failure value `(-1,-1,-1,-1)`. -/
theorem C31_four_squares (single : ℕ → Bool) (probPrime : ℤ → Bool)
    (hP : NoFalsePrimes probPrime) (n : ℤ) (hn : 0 ≤ n) :
    ∃ l, decompose4 single probPrime n = .ok l ∧ (FourSquaresOf l n ∨ l = [-1, -1, -1, -1]) := by
  rcases decompose4_ok (single := single) hP n hn with h | ⟨l, h1, h2⟩
  · exact ⟨_, h, Or.inr rfl⟩
  · exact ⟨l, h1, Or.inl h2⟩

/-- **C31.** A negative argument throws. -/
theorem C31_negative (single : ℕ → Bool) (probPrime : ℤ → Bool) (n : ℤ) (hn : n < 0) :
    decompose4 single probPrime n = .throw := by
  unfold decompose4
  rw [if_pos hn]

/-- **C31.** Perfect squares, and primes `p = 1 mod 4` that the test accepts and whose root of
-1 is found, never fail. -/
theorem C31_squares (single : ℕ → Bool) (probPrime : ℤ → Bool) (hP : NoFalsePrimes probPrime)
    (k : ℕ) : ∃ l, decompose4 single probPrime ((k * k : ℕ) : ℤ) = .ok l ∧
      FourSquaresOf l ((k * k : ℕ) : ℤ) := by
  rcases decompose4_ok (single := single) hP ((k * k : ℕ) : ℤ) (by omega) with h | h
  · exfalso
    revert h
    unfold decompose4
    rw [if_neg (by omega)]
    split
    · rename_i h1
      simp [failed]
    · rename_i h1
      obtain ⟨hr1, hr2⟩ := removeFours_spec (k * k) 1 (by omega) one_ne_zero
      -- what is left after removing the powers of four is again a square
      have hsq : ∀ n v : ℕ, IsSquare n → IsSquare (removeFours n v).1 := by
        intro n v
        induction n, v using removeFours.induct with
        | case1 n v h ih =>
          rw [removeFours, dif_pos h]
          intro hs
          apply ih
          obtain ⟨x, rfl⟩ := hs
          have : x % 2 = 0 := by
            by_contra hx
            have h3 : x % 2 = 1 := by omega
            have := Nat.mul_mod x x 2
            rw [h3] at this
            omega
          obtain ⟨y, rfl⟩ := Nat.dvd_of_mod_eq_zero this
          exact ⟨y, by rw [show 2 * y * (2 * y) = 4 * (y * y) by ring]; omega⟩
        | case2 n v h =>
          rw [removeFours, dif_neg h]
          exact id
      obtain ⟨x, hx⟩ := hsq (k * k) 1 ⟨k, rfl⟩
      simp only [Int.toNat_natCast, hx]
      rw [if_pos]
      · simp only [Res.pure_eq, failed, Res.ok.injEq]
        intro h
        have h2 := (List.cons.inj h).1
        have : sqrRoot ((x * x : ℕ) : ℤ) = x := by
          unfold sqrRoot
          rw [Int.toNat_natCast, Nat.sqrt_eq]
        rw [this] at h2
        push_cast at h2
        omega
      · have : sqrRoot ((x * x : ℕ) : ℤ) = x := by
          unfold sqrRoot
          rw [Int.toNat_natCast, Nat.sqrt_eq]
        rw [this]
        push_cast
        ring
  · exact h

private theorem search_none {single : ℕ → Bool} {probPrime : ℤ → Bool} {delta v n sq p : ℤ}
    (h : (if n ≤ 9634 then exceptions.lookup n else none) = none) :
    decompose4Search single probPrime delta v n sq p =
      if n % 4 = 3 then
        search3 single probPrime delta v (if sq % 2 = 0 then sq - 1 else sq)
          ((if sq % 2 = 0 then p + ((sq - 1) * 2 + 1) else p) / 2)
      else
        search12 single probPrime delta v (if (n - sq) % 2 = 0 then sq - 1 else sq)
          (if (n - sq) % 2 = 0 then p + ((sq - 1) * 2 + 1) else p) := by
  unfold decompose4Search
  split
  · rename_i h'
    rw [h] at h'
    cases h'
  · by_cases h1 : sq % 2 = 0 <;> by_cases h2 : (n - sq) % 2 = 0 <;> simp only [h1, h2, if_true, if_false]

/-- **C31, disagreement with the code.** "Currently there are no known inputs where the search
loop fails": it does fail, for every `n = (4k)² + 7` with `k ≥ 1` such that `8k+5` is not prime
and `8k+6` is not in the table of exceptions, because line 214 takes the square root of the old
remainder `p = 7` instead of the new `n`, so only one candidate is tried. -/
theorem C31_failure (single : ℕ → Bool) (probPrime : ℤ → Bool) (hP : NoFalsePrimes probPrime)
    (k : ℕ) (hk : 1 ≤ k) (hcomp : ¬ (8 * k + 5).Prime)
    (hexc : ((8 * k + 6 : ℕ) : ℤ) ∉ [2, 3, 10, 34, 58, 85, 130, 214, 226, 370, 526, 706, 730, 1414,
      1906, 2986, 9634]) :
    decompose4 single probPrime (((4 * k) ^ 2 + 7 : ℕ) : ℤ) = .ok [-1, -1, -1, -1] := by
  have hn4 : ((4 * k) ^ 2 + 7) % 8 = 7 := by
    rw [show (4 * k) ^ 2 + 7 = 7 + 8 * (2 * k * k) by ring]; omega
  have hrem : removeFours ((4 * k) ^ 2 + 7) 1 = ((4 * k) ^ 2 + 7, 1) := by
    rw [removeFours, dif_neg (by omega)]
  have hroot : sqrRoot (((4 * k) ^ 2 + 7 : ℕ) : ℤ) = 4 * k := by
    unfold sqrRoot
    rw [Int.toNat_natCast]
    have : Nat.sqrt ((4 * k) ^ 2 + 7) = 4 * k := by
      symm
      rw [Nat.eq_sqrt']
      constructor
      · omega
      · nlinarith
    rw [this]; push_cast; ring
  have hroot7 : sqrRoot 7 = 2 := by
    have : Nat.sqrt 7 = 2 := by
      symm
      rw [Nat.eq_sqrt']
      omega
    unfold sqrRoot
    rw [show (7 : ℤ).toNat = 7 from rfl, this]
    rfl
  have hp : probPrime (8 * k + 5) = false := by
    rw [Bool.eq_false_iff]
    intro h
    obtain ⟨q, hq, he⟩ := hP _ h
    have : q = 8 * k + 5 := by omega
    rw [this] at hq
    exact hcomp hq
  have hsearch : decompose4Search single probPrime (4 * k - 1) 1 (8 * k + 6) 2 (8 * k + 2) =
      .ok failed := by
    have hl : exceptions.lookup (8 * (k : ℤ) + 6) = none := by
      rw [List.lookup_eq_none_iff]
      intro e he
      simp only [List.mem_cons, List.not_mem_nil, or_false, not_or] at hexc
      simp only [exceptions, List.mem_cons, List.not_mem_nil, or_false] at he
      push_cast at hexc
      rw [bne_iff_ne]
      rcases he with h | h | h | h | h | h | h | h | h | h | h | h | h | h | h | h | h <;>
        (rw [h]; simp only; omega)
    have hm : (if (8 * (k : ℤ) + 6) ≤ 9634 then exceptions.lookup (8 * (k : ℤ) + 6) else none) =
        none := by
      rw [hl]
      split <;> rfl
    rw [search_none hm]
    rw [if_neg (by omega), if_pos (by omega), if_pos (by omega)]
    rw [search12]
    rw [show (8 * (k : ℤ) + 2 + ((2 - 1) * 2 + 1)) = 8 * k + 5 by ring, hp]
    simp only [Bool.false_eq_true, if_false, Res.pure_eq, Res.ok_bind]
    rw [dif_pos (by norm_num)]
  unfold decompose4
  rw [if_neg (by omega), if_neg (by omega)]
  simp only [Int.toNat_natCast, hrem, hroot]
  rw [if_neg (by push_cast; intro h; ring_nf at h; omega), if_neg (by omega)]
  simp only [Res.pure_eq, Res.ok_bind]
  rw [if_pos (by omega), if_pos (by omega)]
  simp only
  have e1 : (((4 * k) ^ 2 + 7 : ℕ) : ℤ) - 4 * k * (4 * k) = 7 := by push_cast; ring
  rw [e1, hroot7, show (7 + ((4 * (k : ℤ) - 1) * 2 + 1)) = 8 * k + 6 by ring,
    show (8 * (k : ℤ) + 6 - 2 * 2) = 8 * k + 2 by ring]
  exact hsearch

/-- **C31, disagreement with the code.** The smallest member of that family: `decompose4(71)`
fails, although `71 = 49 + 9 + 9 + 4`. -/
theorem C31_failure_71 (single : ℕ → Bool) (probPrime : ℤ → Bool)
    (hP : NoFalsePrimes probPrime) :
    decompose4 single probPrime 71 = .ok [-1, -1, -1, -1] ∧ FourSquaresOf [2, 3, 3, 7] 71 := by
  refine ⟨C31_failure single probPrime hP 2 (by norm_num) (by norm_num) (by decide), ?_⟩
  exact ⟨2, 3, 3, 7, rfl, by norm_num, by norm_num, by norm_num, by norm_num, by norm_num⟩

/-- **C31, disagreement with the code.** There are failures beyond every bound, although by
Lagrange's theorem every number is a sum of four squares. -/
theorem C31_failure_unbounded (single : ℕ → Bool) (probPrime : ℤ → Bool)
    (hP : NoFalsePrimes probPrime) (N : ℕ) :
    ∃ n : ℕ, N < n ∧ decompose4 single probPrime n = .ok [-1, -1, -1, -1] ∧
      ∃ a b c d : ℕ, a ^ 2 + b ^ 2 + c ^ 2 + d ^ 2 = n := by
  refine ⟨(4 * (5 * (N + 300))) ^ 2 + 7, by nlinarith, ?_, Nat.sum_four_squares _⟩
  apply C31_failure single probPrime hP
  · omega
  · intro h
    have h5 : 5 ∣ 8 * (5 * (N + 300)) + 5 := ⟨8 * (N + 300) + 1, by ring⟩
    have := (Nat.prime_dvd_prime_iff_eq (by norm_num) h).1 h5
    omega
  · simp only [List.mem_cons, List.not_mem_nil, or_false, not_or]
    omega

/-- The exact primality test meets the hypothesis. -/
example : NoFalsePrimes fun p => decide (0 ≤ p ∧ p.toNat.Prime) := by
  intro p h
  simp only [decide_eq_true_eq] at h
  exact ⟨p.toNat, h.2, by omega⟩

end Verif.Props
