/-
Lemmas about the sums of squares.
-/
import Verif.Model.FourSquares
import Mathlib.NumberTheory.LegendreSymbol.QuadraticReciprocity
import Mathlib.Tactic.LinearCombination
import Mathlib.Tactic.Linarith
import Mathlib.Tactic.IntervalCases

namespace Verif.FourSq

/-- The invariant of Cornacchia's loop, with the Bézout coefficients `s`, `t` that the code does
not store. -/
structure CInv (p a b : ℤ) (s t : ℤ) : Prop where
  hp : 0 < p
  ha : p < a * a
  hb : 0 ≤ b
  hba : b < a
  hs : 0 ≤ s
  ht : 0 < t
  h1 : a * t + b * s = p
  h2 : p ∣ b * b + t * t
  h2' : p ∣ a * a + s * s
  h3 : p ∣ a * b - s * t

theorem CInv.step {p a b s t : ℤ} (h : CInv p a b s t) (hb : p < b * b) :
    CInv p b (a % b) t (s + a / b * t) := by
  have hb0 : 0 < b := by
    rcases eq_or_lt_of_le h.hb with h0 | h0
    · rw [← h0] at hb; have := h.hp; omega
    · exact h0
  have hq : 1 ≤ a / b := by
    rw [Int.le_ediv_iff_mul_le hb0]; have := h.hba; omega
  have hm : a % b = a - a / b * b := by
    have := Int.mul_ediv_add_emod a b
    linarith
  refine ⟨h.hp, hb, Int.emod_nonneg _ (by omega), Int.emod_lt_of_pos _ hb0, h.ht.le, ?_, ?_, ?_,
    h.h2, ?_⟩
  · have := mul_pos (show 0 < a / b by omega) h.ht
    have hs := h.hs
    omega
  · rw [hm]; linear_combination h.h1
  · rw [hm]
    obtain ⟨x, hx⟩ := h.h2
    obtain ⟨y, hy⟩ := h.h2'
    obtain ⟨z, hz⟩ := h.h3
    exact ⟨y - 2 * (a / b) * z + (a / b) ^ 2 * x, by
      linear_combination hy - 2 * (a / b) * hz + (a / b) ^ 2 * hx⟩
  · rw [hm]
    obtain ⟨x, hx⟩ := h.h2
    obtain ⟨z, hz⟩ := h.h3
    exact ⟨z - (a / b) * x, by linear_combination hz - (a / b) * hx⟩

theorem CInv.final {p : ℕ} (hp : p.Prime) (hp2 : p ≠ 2) {a b s t : ℤ} (h : CInv p a b s t)
    (hb : b * b ≤ p) : 0 < b ∧ b * b + (a % b) * (a % b) = p := by
  have hpi : Prime (p : ℤ) := Nat.prime_iff_prime_int.1 hp
  have ha0 : 0 < a := lt_of_le_of_lt h.hb h.hba
  have hns : ∀ x : ℤ, x * x ≠ p := by
    intro x hx
    have h1 : (p : ℤ) ∣ x * x := ⟨1, by rw [hx]; ring⟩
    have h2 : (p : ℤ) ∣ x := by rcases hpi.dvd_or_dvd h1 with h | h <;> exact h
    obtain ⟨y, rfl⟩ := h2
    have hp0 := h.hp
    have h3 : (p : ℤ) * (y * y) = 1 := by
      apply mul_left_cancel₀ (ne_of_gt hp0)
      linear_combination hx
    have := Int.isUnit_iff.1 (IsUnit.of_mul_eq_one _ h3)
    have := hp.two_le
    omega
  have hbt : b * b < p := lt_of_le_of_ne hb (hns b)
  have hat : a * t ≤ p := by
    have := h.h1
    have := mul_nonneg h.hb h.hs
    omega
  have htt : t * t < p := by
    by_contra hcon
    push Not at hcon
    have h1 : (a * t) * (a * t) ≤ p * p :=
      mul_self_le_mul_self (mul_nonneg ha0.le h.ht.le) hat
    have h2 : (p : ℤ) * p < (a * a) * (t * t) := by
      have := h.ha
      have := h.hp
      nlinarith
    have : (a * t) * (a * t) = (a * a) * (t * t) := by ring
    omega
  have hsum : b * b + t * t = p := by
    obtain ⟨k, hk⟩ := h.h2
    have hp0 := h.hp
    have hpos : 0 < b * b + t * t := by
      have := mul_pos h.ht h.ht
      have := mul_self_nonneg b
      omega
    have hk1 : 0 < k := by
      rw [hk] at hpos
      exact (pos_iff_pos_of_mul_pos hpos).1 hp0
    have hk2 : k < 2 := by
      by_contra hc
      push Not at hc
      nlinarith
    have : k = 1 := by omega
    rw [hk, this, mul_one]
  have hb0 : 0 < b := by
    rcases eq_or_lt_of_le h.hb with h0 | h0
    · exfalso
      rw [← h0] at hsum
      exact hns t (by linear_combination hsum)
    · exact h0
  have hcop : IsCoprime b t := by
    rw [Int.isCoprime_iff_gcd_eq_one]
    by_contra hg
    obtain ⟨q, hq, hqd⟩ := Nat.exists_prime_and_dvd hg
    have h1 : (q : ℤ) ∣ b := (Int.natCast_dvd_natCast.2 hqd).trans (Int.gcd_dvd_left ..)
    have h2 : (q : ℤ) ∣ t := (Int.natCast_dvd_natCast.2 hqd).trans (Int.gcd_dvd_right ..)
    obtain ⟨x, hx⟩ := h1
    obtain ⟨y, hy⟩ := h2
    have h3 : (p : ℤ) = q * q * (x * x + y * y) := by
      rw [← hsum, hx, hy]; ring
    have h4 : (q * q : ℕ) ∣ p := by
      have : ((q * q : ℕ) : ℤ) ∣ (p : ℤ) := ⟨x * x + y * y, by push_cast; exact h3⟩
      exact Int.natCast_dvd_natCast.1 this
    have h5 : q ∣ p := (Dvd.intro _ rfl).trans h4
    have h6 : q = p := (Nat.prime_dvd_prime_iff_eq hq hp).1 h5
    subst h6
    have := Nat.le_of_dvd hq.pos h4
    have := hq.two_le
    nlinarith
  have hlt : t < a := by
    by_contra hc
    push Not at hc
    have h5 : a * a ≤ a * t := mul_le_mul_of_nonneg_left hc ha0.le
    have := h.ha
    omega
  have hdvd : b ∣ a - t := by
    have : b ∣ t * (a - t) := ⟨b - s, by linear_combination h.h1 - hsum⟩
    exact hcop.dvd_of_dvd_mul_left this
  obtain ⟨k, hk⟩ := hdvd
  have hk0 : 0 < k := by
    have : 0 < b * k := by rw [← hk]; omega
    exact (pos_iff_pos_of_mul_pos this).1 hb0
  have htk : t * k = b - s := by
    apply mul_left_cancel₀ (ne_of_gt hb0)
    have : t * (a - t) = b * (b - s) := by linear_combination h.h1 - hsum
    rw [hk] at this
    linear_combination this
  have htb : t < b := by
    have h1 : t ≤ t * k := by nlinarith [h.ht]
    have hs := h.hs
    rcases lt_or_eq_of_le (show t ≤ b by omega) with h2 | h2
    · exact h2
    · exfalso
      subst h2
      have h3 : (2 : ℤ) ∣ p := ⟨t * t, by linear_combination -hsum⟩
      have h4 : 2 ∣ p := by exact_mod_cast h3
      exact hp2 ((Nat.prime_dvd_prime_iff_eq Nat.prime_two hp).1 h4).symm
  refine ⟨hb0, ?_⟩
  have : a % b = t := by
    rw [show a = t + b * k by linarith, Int.add_mul_emod_self_left]
    exact Int.emod_eq_of_lt h.ht.le htb
  rw [this, hsum]

theorem cornacchia_inv {p : ℕ} (a b : ℕ) (h : ∃ s t, CInv p a b s t) :
    ∃ s t, CInv p (cornacchia p a b).1 (cornacchia p a b).2 s t ∧
      (cornacchia p a b).2 * (cornacchia p a b).2 ≤ p := by
  induction a, b using cornacchia.induct (p := p) with
  | case1 a b hlt ih =>
    obtain ⟨s, t, h⟩ := h
    rw [cornacchia, dif_pos hlt]
    apply ih
    have := h.step (by exact_mod_cast hlt)
    exact ⟨_, _, by push_cast; exact this⟩
  | case2 a b hlt =>
    rw [cornacchia, dif_neg hlt]
    obtain ⟨s, t, h⟩ := h
    exact ⟨s, t, h, by simpa using Nat.le_of_not_lt hlt⟩

theorem cornacchia_ok {p b : ℕ} (hp : p.Prime) (hp2 : p ≠ 2) (hbp : b < p)
    (hb : p ∣ b * b + 1) :
    ∃ r, zmod (cornacchia p p b).1 (cornacchia p p b).2 = .ok r ∧
      (cornacchia p p b).2 * (cornacchia p p b).2 + r * r = p ∧ r ≠ 0 := by
  have h0 : CInv p p b 0 1 := by
    have := hp.two_le
    refine ⟨by omega, by nlinarith, by omega, by omega, le_refl _, one_pos, by ring, ?_, ?_, ?_⟩
    · have : ((p : ℕ) : ℤ) ∣ ((b * b + 1 : ℕ) : ℤ) := Int.natCast_dvd_natCast.2 hb
      simpa using this
    · exact ⟨p, by ring⟩
    · exact ⟨b, by ring⟩
  obtain ⟨s, t, h, hle⟩ := cornacchia_inv p b ⟨0, 1, h0⟩
  obtain ⟨h1, h2⟩ := h.final hp hp2 (by exact_mod_cast hle)
  refine ⟨_, if_neg (by omega), by exact_mod_cast h2, ?_⟩
  intro h3
  have h4 : (((cornacchia p p b).1 : ℤ) % ((cornacchia p p b).2 : ℤ)) = 0 := by exact_mod_cast h3
  rw [h4] at h2
  have h5 : (cornacchia p p b).2 * (cornacchia p p b).2 = p := by
    have : ((cornacchia p p b).2 : ℤ) * (cornacchia p p b).2 = p := by linarith
    exact_mod_cast this
  have h6 := (Nat.dvd_prime hp).1 (Dvd.intro _ h5)
  rcases h6 with h6 | h6
  · rw [h6] at h5; have := hp.two_le; omega
  · rw [h6] at h5; have := hp.two_le; nlinarith

/-! ### square roots of -1 -/

theorem dvd_of_sq {p b : ℕ} (h : ((b : ZMod p)) ^ 2 = -1) : p ∣ b * b + 1 := by
  rw [← ZMod.natCast_eq_zero_iff]
  push_cast
  linear_combination h

theorem pow_quarter {p q : ℕ} (hp : p.Prime) (h4 : p % 4 = 1) (hq : jacobiSym q p = -1) :
    p ∣ (q ^ (p / 4) % p) * (q ^ (p / 4) % p) + 1 := by
  haveI := Fact.mk hp
  apply dvd_of_sq
  rw [ZMod.natCast_mod, Nat.cast_pow, ← pow_mul]
  have h1 : p / 4 * 2 = p / 2 := by omega
  rw [h1]
  have := legendreSym.eq_pow p (q : ℤ)
  rw [_root_.jacobiSym.legendreSym.to_jacobiSym, hq] at this
  push_cast at this
  exact this.symm

theorem small_ok : ∀ p < 281, p % 8 = 1 → p.Prime →
    p ∣ iunitSmall p * iunitSmall p + 1 ∧ iunitSmall p < p := by
  have h : ∀ p : Fin 281, p.1 % 8 = 1 → (p.1 ∣ iunitSmall p * iunitSmall p + 1 ∧ iunitSmall p < p) ∨
      (∃ d : Fin 20, 1 < d.1 ∧ d.1 < p.1 ∧ p.1 % d.1 = 0) ∨ p.1 = 1 := by decide +kernel
  intro p hp h8 hpr
  rcases h ⟨p, hp⟩ h8 with h | ⟨d, hd1, hd2, hd3⟩ | h
  · exact h
  · exfalso
    rcases (Nat.dvd_prime hpr).1 (Nat.dvd_of_mod_eq_zero hd3) with h | h
    · omega
    · simp only [h] at hd2; omega
  · exact absurd h hpr.one_lt.ne'

theorem jacobiLoop_cases (p : ℕ) (hp : 0 < p) (qs : List ℕ) : ∀ ret,
    (jacobiLoop p qs ret = ret ∧ ∀ q ∈ qs, jacobiSym q p ≠ -1) ∨
    ∃ q ∈ qs, jacobiSym q p = -1 ∧ jacobiLoop p qs ret = q ^ ((p - 1) / 4) % p := by
  induction qs with
  | nil => intro ret; left; simp [jacobiLoop]
  | cons q qs ih =>
    intro ret
    rw [jacobiLoop]
    by_cases h : jacobiSym q p = -1
    · rw [if_pos h]
      rcases ih (q ^ ((p - 1) / 4) % p) with ⟨h1, -⟩ | ⟨q', h1, h2, h3⟩
      · right; exact ⟨q, by simp, h, h1⟩
      · right; exact ⟨q', by simp [h1], h2, h3⟩
    · rw [if_neg h]
      rcases ih ret with ⟨h1, h2⟩ | ⟨q', h1, h2, h3⟩
      · left
        refine ⟨h1, ?_⟩
        intro q' hq'
        rcases List.mem_cons.1 hq' with rfl | h'
        · exact h
        · exact h2 q' h'
      · right; exact ⟨q', by simp [h1], h2, h3⟩

theorem prime_not_sq {p : ℕ} (hp : p.Prime) : Nat.sqrt p * Nat.sqrt p ≠ p := by
  intro h
  rcases (Nat.dvd_prime hp).1 (Dvd.intro _ h) with h6 | h6
  · rw [h6] at h; have := hp.two_le; omega
  · rw [h6] at h; have := hp.two_le; nlinarith

/-- For a prime `p = 1 mod 4` a root of `-1` is found, or none of the small primes is a
non-residue. -/
theorem iunit_cases (single : ℕ → Bool) {p : ℕ} (hp : p.Prime) (h4 : p % 4 = 1) :
    (iunit single p).2 = false ∧ ((p ∣ (iunit single p).1 * (iunit single p).1 + 1 ∧
      (iunit single p).1 < p) ∨
      ((iunit single p).1 = 0 ∧ p % 8 = 1 ∧ 281 ≤ p ∧ ∀ q ∈ smallPrimes, jacobiSym q p ≠ -1)) := by
  unfold iunit
  rw [if_neg (by have := prime_not_sq hp; tauto)]
  by_cases h5 : p % 8 = 5
  · rw [if_pos h5]
    refine ⟨rfl, Or.inl ⟨?_, Nat.mod_lt _ hp.pos⟩⟩
    apply pow_quarter hp h4
    have := jacobiSym.at_two (b := p) (Nat.odd_iff.2 (by omega))
    rw [show ((2 : ℕ) : ℤ) = 2 from rfl, this, ZMod.χ₈_nat_eq_if_mod_eight]
    simp [h5]; omega
  · rw [if_neg h5]
    by_cases h281 : p < 281
    · rw [if_pos h281]
      exact ⟨rfl, Or.inl (small_ok p h281 (by omega) hp)⟩
    · rw [if_neg h281, if_pos h4]
      refine ⟨rfl, ?_⟩
      rcases jacobiLoop_cases p hp.pos smallPrimes 0 with ⟨h1, h2⟩ | ⟨q, hq, h1, h2⟩
      · right; exact ⟨h1, by omega, by omega, h2⟩
      · left
        simp only [h2]
        rw [show (p - 1) / 4 = p / 4 by omega]
        exact ⟨pow_quarter hp h4 h1, Nat.mod_lt _ hp.pos⟩

theorem dpp_prime (single : ℕ → Bool) {p : ℕ} (hp : p.Prime) (h4 : p % 4 = 1) :
    (∃ y z : ℕ, decomposeProbablePrime single p = .ok ((y : ℤ), (z : ℤ)) ∧ y * y + z * z = p ∧ z ≠ 0) ∨
    (decomposeProbablePrime single p = .ok (0, 0) ∧ p % 8 = 1 ∧ 281 ≤ p ∧
      ∀ q ∈ smallPrimes, jacobiSym q p ≠ -1) := by
  obtain ⟨h1, h2⟩ := iunit_cases single hp h4
  obtain ⟨b, hb⟩ : ∃ b, b = (iunit single p).1 := ⟨_, rfl⟩
  have hi : iunit single p = (b, false) := by rw [hb, ← h1]
  rw [← hb] at h2
  unfold decomposeProbablePrime
  rw [if_neg (by omega), if_neg (by omega)]
  simp only [Int.toNat_natCast, hi]
  rcases h2 with ⟨h2, h3⟩ | ⟨h2, h3⟩
  · left
    have hb0 : b ≠ 0 := by
      rintro rfl
      have := Nat.dvd_one.1 (by simpa using h2)
      exact hp.one_lt.ne' this
    obtain ⟨r, hr1, hr2, hr3⟩ := cornacchia_ok hp (by omega) h3 h2
    refine ⟨(cornacchia p p b).2, r, ?_, hr2, hr3⟩
    simp [hb0, hr1]
  · right
    refine ⟨?_, h3⟩
    simp [h2]

end Verif.FourSq
