/- Facts about `log2roundUp` and `next2power`. -/
import Mathlib.Tactic.Linarith
import Mathlib.Data.Nat.Bitwise
import Verif.Model.Pedersen

namespace Verif

theorem log2roundUp_le {n : Nat} (h : n ≤ 2 ^ 63) : log2roundUp n ≤ 63 ∧ n ≤ 2 ^ log2roundUp n := by
  have hs := log2roundUpFrom_spec n 64 0 (by intro j hj; omega) (by omega)
  rcases hs.1 with ⟨h1, h2⟩ | h2
  · exact ⟨by change log2roundUp n < 64 at h1; omega, h2⟩
  · exfalso
    have := hs.2 63 (by rw [h2]; omega)
    omega

theorem log2roundUp_lt {n j : Nat} (h : j < log2roundUp n) : 2 ^ j < n :=
  (log2roundUpFrom_spec n 64 0 (by intro j hj; omega) (by omega)).2 j h

theorem log2roundUp_unique {n e : Nat} (he : e ≤ 63) (h1 : n ≤ 2 ^ e) (h2 : ∀ j, j < e → 2 ^ j < n) :
    log2roundUp n = e := by
  have hb := log2roundUp_le (n := n) (le_trans h1 (Nat.pow_le_pow_right (by omega) he))
  rcases Nat.lt_trichotomy (log2roundUp n) e with h | h | h
  · have := h2 _ h; omega
  · exact h
  · have := log2roundUp_lt h; omega

theorem log2roundUp_two_pow {k : Nat} (h : k ≤ 63) : log2roundUp (2 ^ k) = k :=
  log2roundUp_unique h le_rfl (fun _ hj => Nat.pow_lt_pow_right (by omega) hj)

theorem log2roundUp_le_iff {n e : Nat} (hn : n ≤ 2 ^ 63) : log2roundUp n ≤ e ↔ n ≤ 2 ^ e := by
  constructor
  · intro h
    exact le_trans (log2roundUp_le hn).2 (Nat.pow_le_pow_right (by omega) h)
  · intro h
    by_contra hc
    have := log2roundUp_lt (n := n) (j := e) (by omega)
    omega

/-- Or-ing in the shifts by 1,2,...,32 sets every bit below a set bit (distance < 64). -/
theorem smear_testBit (v j : Nat) :
    ([1, 2, 4, 8, 16, 32].foldl (fun v i => v ||| (v >>> i)) v).testBit j = true ↔
      ∃ d, d < 64 ∧ v.testBit (j + d) = true := by
  have key : ∀ (w k : Nat) (m : Nat), (∀ j, w.testBit j = true ↔ ∃ d, d < m ∧ v.testBit (j + d) = true) →
      k = m → ∀ j, (w ||| (w >>> k)).testBit j = true ↔ ∃ d, d < m + m ∧ v.testBit (j + d) = true := by
    intro w k m hw hk j
    subst hk
    rw [Nat.testBit_or, Nat.testBit_shiftRight, Bool.or_eq_true, hw, hw]
    constructor
    · rintro (⟨d, h1, h2⟩ | ⟨d, h1, h2⟩)
      · exact ⟨d, by omega, h2⟩
      · exact ⟨k + d, by omega, by rw [← h2]; congr 1; omega⟩
    · rintro ⟨d, h1, h2⟩
      by_cases hd : d < k
      · exact Or.inl ⟨d, hd, h2⟩
      · exact Or.inr ⟨d - k, by omega, by rw [← h2]; congr 1; omega⟩
  have h0 : ∀ j, v.testBit j = true ↔ ∃ d, d < 1 ∧ v.testBit (j + d) = true := by
    intro j
    constructor
    · intro h; exact ⟨0, by omega, h⟩
    · rintro ⟨d, h1, h2⟩
      have : d = 0 := by omega
      subst this; exact h2
  simp only [List.foldl_cons, List.foldl_nil]
  have h1 := key v 1 1 h0 rfl
  have h2 := key _ 2 2 h1 rfl
  have h3 := key _ 4 4 h2 rfl
  have h4 := key _ 8 8 h3 rfl
  have h5 := key _ 16 16 h4 rfl
  have h6 := key _ 32 32 h5 rfl
  exact h6 j

/-- The smear of `v`, with `2^k ≤ v < 2^(k+1)`, `k < 64`, is `2^(k+1)-1`. -/
theorem smear_eq {v k : Nat} (hk : k < 64) (h1 : 2 ^ k ≤ v) (h2 : v < 2 ^ (k + 1)) :
    [1, 2, 4, 8, 16, 32].foldl (fun v i => v ||| (v >>> i)) v = 2 ^ (k + 1) - 1 := by
  apply Nat.eq_of_testBit_eq
  intro j
  rw [Bool.eq_iff_iff, smear_testBit, Nat.testBit_two_pow_sub_one]
  simp only [decide_eq_true_eq]
  have hvk : v.testBit k = true := by
    rw [Nat.testBit_eq_decide_div_mod_eq]
    have : v / 2 ^ k = 1 := by
      apply Nat.div_eq_of_lt_le
      · simpa using h1
      · simpa [pow_succ, Nat.mul_comm] using h2
    simp [this]
  constructor
  · rintro ⟨d, _, hd⟩
    by_contra hc
    have hlt : v < 2 ^ (j + d) := lt_of_lt_of_le h2 (Nat.pow_le_pow_right (by omega) (by omega))
    rw [Nat.testBit_lt_two_pow hlt] at hd
    exact absurd hd (by simp)
  · intro hj
    exact ⟨k - j, by omega, by rw [show j + (k - j) = k by omega]; exact hvk⟩

theorem next2power_eq {n : Nat} (h1 : 1 ≤ n) (h2 : n ≤ 2 ^ 63) : next2power n = 2 ^ log2roundUp n := by
  have hle := log2roundUp_le h2
  unfold next2power
  have hm : (n + (2 ^ 64 - 1)) % 2 ^ 64 = n - 1 := by omega
  rw [hm]
  rcases Nat.eq_zero_or_pos (log2roundUp n) with h0 | h0
  · have hn1 : n = 1 := by
      have := hle.2; rw [h0] at this; simp at this; omega
    subst hn1
    rw [h0]; decide
  · have hlt := log2roundUp_lt (n := n) (j := log2roundUp n - 1) (by omega)
    rw [smear_eq (k := log2roundUp n - 1) (by omega) (by omega)
      (by rw [show log2roundUp n - 1 + 1 = log2roundUp n by omega]; omega)]
    rw [show log2roundUp n - 1 + 1 = log2roundUp n by omega]
    have hp : 0 < 2 ^ log2roundUp n := Nat.two_pow_pos _
    rw [Nat.sub_add_cancel hp]
    apply Nat.mod_eq_of_lt
    exact Nat.pow_lt_pow_right (by omega) (by omega)

theorem next2power_half {n : Nat} (h1 : 1 < n) (h2 : n ≤ 2 ^ 63) :
    next2power n / 2 = 2 ^ (log2roundUp n - 1) := by
  have h0 := (log2roundUp_half_lt h1).1
  rw [next2power_eq (by omega) h2]
  obtain ⟨k, hk⟩ : ∃ k, log2roundUp n = k + 1 := ⟨log2roundUp n - 1, by omega⟩
  rw [hk, pow_succ]; simp

end Verif
