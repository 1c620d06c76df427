/-
Lemmas about decompose4.
-/
import Verif.Lemmas.FourSquares
import Verif.Spec.FourSquares

namespace Verif.FourSq
open Verif.Spec

/-- sum of squares of a list -/
def sqSum (l : List ℤ) : ℤ := (l.map fun x => x ^ 2).sum

theorem fourSquares_iff (l : List ℤ) (n : ℤ) :
    FourSquaresOf l n ↔ l.length = 4 ∧ (∀ x ∈ l, 0 ≤ x) ∧ sqSum l = n := by
  constructor
  · rintro ⟨a, b, c, d, rfl, h1, h2, h3, h4, h5⟩
    refine ⟨rfl, by simp [*], ?_⟩
    simp [sqSum]; linarith
  · rintro ⟨h1, h2, h3⟩
    match l, h1 with
    | [a, b, c, d], _ =>
      simp only [List.mem_cons, List.not_mem_nil, or_false, forall_eq_or_imp, forall_eq] at h2
      refine ⟨a, b, c, d, rfl, h2.1, h2.2.1, h2.2.2.1, h2.2.2.2, ?_⟩
      simp [sqSum] at h3
      linarith

theorem sortScaled_ok {l : List ℤ} {n v : ℤ} (h : FourSquaresOf l n) (hv : 0 ≤ v) :
    FourSquaresOf (sortScaled l v) (v ^ 2 * n) := by
  rw [fourSquares_iff] at h ⊢
  obtain ⟨h1, h2, h3⟩ := h
  have hp := List.mergeSort_perm l (fun a b => decide (a ≤ b))
  refine ⟨by simp [sortScaled, h1], ?_, ?_⟩
  · intro x hx
    obtain ⟨y, hy, rfl⟩ := List.mem_map.1 hx
    exact mul_nonneg (h2 y (hp.mem_iff.1 hy)) hv
  · rw [← h3]
    unfold sqSum sortScaled
    rw [← (hp.map (fun x => x ^ 2)).sum_eq, List.map_map]
    generalize l.mergeSort _ = l'
    induction l' with
    | nil => simp
    | cons a l' ih =>
      simp only [List.map_cons, List.sum_cons, Function.comp_apply] at ih ⊢
      rw [ih]; ring

theorem sum4 {a b c d n : ℤ} (ha : 0 ≤ a) (hb : 0 ≤ b) (hc : 0 ≤ c) (hd : 0 ≤ d)
    (h : a ^ 2 + b ^ 2 + c ^ 2 + d ^ 2 = n) : FourSquaresOf [a, b, c, d] n :=
  ⟨a, b, c, d, rfl, ha, hb, hc, hd, h⟩

/-- what both searches may return -/
def Outcome (r : Res (List ℤ)) (n : ℤ) : Prop :=
  r = .ok failed ∨ ∃ l, r = .ok l ∧ FourSquaresOf l n

variable {single : ℕ → Bool} {probPrime : ℤ → Bool}

theorem dpp_test (hP : NoFalsePrimes probPrime) {p : ℤ} (hp : probPrime p = true)
    (h4 : p % 4 = 1) :
    ∃ y z : ℤ, decomposeProbablePrime single p = .ok (y, z) ∧ 0 ≤ y ∧ 0 ≤ z ∧
      (z ≠ 0 → y ^ 2 + z ^ 2 = p) := by
  obtain ⟨q, hq, rfl⟩ := hP p hp
  rcases dpp_prime single hq (by omega) with ⟨y, z, h1, h2, h3⟩ | ⟨h1, -⟩
  · refine ⟨y, z, h1, by omega, by omega, fun _ => ?_⟩
    have : ((y * y + z * z : ℕ) : ℤ) = q := by rw [h2]
    push_cast at this
    linarith
  · exact ⟨0, 0, h1, le_refl _, le_refl _, fun h => absurd rfl h⟩

theorem search12_ok (hP : NoFalsePrimes probPrime) {delta v : ℤ} (hd : 0 ≤ delta) (hv : 0 ≤ v)
    (n : ℤ) (sq p : ℤ) : 0 ≤ sq → p % 4 = 1 → n = sq ^ 2 + p →
    Outcome (search12 single probPrime delta v sq p) (v ^ 2 * (delta ^ 2 + n)) := by
  induction sq, p using search12.induct with
  | case1 sq p ih =>
    intro hsq h4 hn
    have hrec : Outcome (if h : sq - 2 < 0 then pure failed
        else search12 single probPrime delta v (sq - 2) (p + ((sq - 2 + 1) * 4)))
        (v ^ 2 * (delta ^ 2 + n)) := by
      by_cases h : sq - 2 < 0
      · rw [dif_pos h]; exact Or.inl rfl
      · rw [dif_neg h]
        exact ih h (by omega) (by omega) (by rw [hn]; ring)
    rw [search12]
    by_cases hp : probPrime p = true
    · rw [if_pos hp]
      obtain ⟨y, z, h1, hy, hz, h2⟩ := dpp_test (single := single) hP hp h4
      simp only [h1, Res.ok_bind, Res.pure_eq]
      by_cases hz0 : z ≠ 0
      · simp only [hz0, if_true, ne_eq, not_false_eq_true]
        refine Or.inr ⟨_, rfl, sortScaled_ok (sum4 hd hsq hy hz ?_) hv⟩
        rw [hn, ← h2 hz0]; ring
      · simp only [hz0, if_false]
        exact hrec
    · rw [if_neg hp]
      exact hrec

theorem search3_ok (hP : NoFalsePrimes probPrime) {delta v : ℤ} (hd : 0 ≤ delta) (hv : 0 ≤ v)
    (n : ℤ) (sq p : ℤ) : 0 ≤ sq → sq % 2 = 1 → p % 4 = 1 → n = sq ^ 2 + 2 * p →
    Outcome (search3 single probPrime delta v sq p) (v ^ 2 * (delta ^ 2 + n)) := by
  induction sq, p using search3.induct with
  | case1 sq p ih =>
    intro hsq hodd h4 hn
    have hrec : Outcome (if h : sq - 2 < 0 then pure failed
        else search3 single probPrime delta v (sq - 2) (p + ((sq - 2) * 2 + 2)))
        (v ^ 2 * (delta ^ 2 + n)) := by
      by_cases h : sq - 2 < 0
      · rw [dif_pos h]; exact Or.inl rfl
      · rw [dif_neg h]
        exact ih h (by omega) (by omega) (by omega) (by rw [hn]; ring)
    rw [search3]
    by_cases hp : probPrime p = true
    · rw [if_pos hp]
      obtain ⟨y, z, h1, hy, hz, h2⟩ := dpp_test (single := single) hP hp h4
      simp only [h1, Res.ok_bind, Res.pure_eq]
      by_cases hz0 : z ≠ 0
      · simp only [hz0, if_true, ne_eq, not_false_eq_true]
        refine Or.inr ⟨_, rfl, sortScaled_ok (sum4 hd hsq (by omega) (abs_nonneg _) ?_) hv⟩
        rw [sq_abs, hn, ← h2 hz0]; ring
      · simp only [hz0, if_false]
        exact hrec
    · rw [if_neg hp]
      exact hrec

theorem exceptions_ok : ∀ e ∈ exceptions, 0 ≤ e.2.1 ∧ 0 ≤ e.2.2.1 ∧ 0 ≤ e.2.2.2 ∧
    e.2.1 ^ 2 + e.2.2.1 ^ 2 + e.2.2.2 ^ 2 = e.1 := by
  decide

theorem lookup_mem {α β : Type} [BEq α] [LawfulBEq α] {l : List (α × β)} {a : α} {b : β}
    (h : l.lookup a = some b) : (a, b) ∈ l := by
  induction l with
  | nil => simp at h
  | cons x l ih =>
    obtain ⟨x1, x2⟩ := x
    rw [List.lookup_cons] at h
    by_cases hx : a = x1
    · subst hx; simp at h; simp [h]
    · have : (a == x1) = false := by simpa using hx
      rw [this] at h
      exact List.mem_cons_of_mem _ (ih h)

theorem search_ok (hP : NoFalsePrimes probPrime) {delta v n sq p : ℤ} (hd : 0 ≤ delta)
    (hv : 0 ≤ v) (hsq : 1 ≤ sq) (hn : n = sq ^ 2 + p) (h4 : n % 4 ≠ 0) (h8 : n % 8 ≠ 7) :
    Outcome (decompose4Search single probPrime delta v n sq p) (v ^ 2 * (delta ^ 2 + n)) := by
  unfold decompose4Search
  split
  · rename_i x y z hl
    split at hl
    · obtain ⟨h1, h2, h3, h5⟩ := exceptions_ok _ (lookup_mem hl)
      refine Or.inr ⟨_, rfl, sortScaled_ok (sum4 hd h1 h2 h3 ?_) hv⟩
      simp only at h5
      rw [← h5]; ring
    · cases hl
  · have hpar : ∀ s : ℤ, s ^ 2 % 8 = if s % 2 = 1 then 1 else if s % 4 = 0 then 0 else 4 := by
      intro s
      have h1 : s ^ 2 % 8 = (s % 8) ^ 2 % 8 := by
        rw [pow_two, pow_two, Int.mul_emod]
      have h2 : 0 ≤ s % 8 ∧ s % 8 < 8 := ⟨by omega, by omega⟩
      obtain ⟨r, hr⟩ : ∃ r, r = s % 8 := ⟨_, rfl⟩
      rw [h1, ← hr]
      obtain ⟨h2, h3⟩ := h2
      rw [← hr] at h2 h3
      have h5 : s % 2 = r % 2 := by omega
      have h6 : s % 4 = r % 4 := by omega
      rw [h5, h6]
      interval_cases r <;> decide
    by_cases h3 : n % 4 = 3
    · rw [if_pos h3]
      by_cases he : sq % 2 = 0
      · simp only [he, if_true]
        have e : n = (sq - 1) ^ 2 + (p + ((sq - 1) * 2 + 1)) := by rw [hn]; ring
        have := hpar (sq - 1)
        rw [if_pos (by omega)] at this
        apply search3_ok hP hd hv n _ _ (by omega) (by omega) (by omega)
        have : (p + ((sq - 1) * 2 + 1)) % 2 = 0 := by omega
        omega
      · simp only [he, if_false]
        have := hpar sq
        rw [if_pos (by omega)] at this
        apply search3_ok hP hd hv n _ _ (by omega) (by omega) (by omega)
        have : p % 2 = 0 := by omega
        omega
    · rw [if_neg h3]
      by_cases he : (n - sq) % 2 = 0
      · simp only [he, if_true]
        have e : n = (sq - 1) ^ 2 + (p + ((sq - 1) * 2 + 1)) := by rw [hn]; ring
        apply search12_ok hP hd hv n _ _ (by omega) _ e
        have := hpar (sq - 1)
        by_cases h2 : (sq - 1) % 2 = 1
        · rw [if_pos h2] at this; omega
        · rw [if_neg h2] at this; split at this <;> omega
      · simp only [he, if_false]
        apply search12_ok hP hd hv n _ _ (by omega) _ hn
        have := hpar sq
        by_cases h2 : sq % 2 = 1
        · rw [if_pos h2] at this; omega
        · rw [if_neg h2] at this; split at this <;> omega

theorem removeFours_spec (n v : ℕ) (hn : n ≠ 0) (hv : v ≠ 0) :
    (removeFours n v).1 * (removeFours n v).2 ^ 2 = n * v ^ 2 ∧ (removeFours n v).1 % 4 ≠ 0 := by
  induction n, v using removeFours.induct with
  | case1 n v h ih =>
    rw [removeFours, dif_pos h]
    obtain ⟨h1, h2⟩ := ih (by omega) (by omega)
    refine ⟨?_, h2⟩
    rw [h1]
    obtain ⟨k, hk⟩ := Nat.dvd_of_mod_eq_zero h.1
    rw [hk, Nat.mul_div_cancel_left k (by omega)]
    ring
  | case2 n v h =>
    rw [removeFours, dif_neg h]
    exact ⟨rfl, by omega⟩

theorem sqrRoot_spec (n : ℤ) (hn : 0 ≤ n) : 0 ≤ sqrRoot n ∧ sqrRoot n * sqrRoot n ≤ n ∧
    n < (sqrRoot n + 1) * (sqrRoot n + 1) := by
  unfold sqrRoot
  have h1 := Nat.sqrt_le n.toNat
  have h2 := Nat.lt_succ_sqrt n.toNat
  refine ⟨by omega, ?_, ?_⟩
  · have : ((Nat.sqrt n.toNat * Nat.sqrt n.toNat : ℕ) : ℤ) ≤ (n.toNat : ℤ) := by exact_mod_cast h1
    push_cast at this
    omega
  · have : ((n.toNat : ℕ) : ℤ) < ((Nat.succ (Nat.sqrt n.toNat) * Nat.succ (Nat.sqrt n.toNat) : ℕ) : ℤ) := by
      exact_mod_cast h2
    push_cast [Nat.succ_eq_add_one] at this
    omega

theorem decompose4_ok (hP : NoFalsePrimes probPrime) (n : ℤ) (hn : 0 ≤ n) :
    Outcome (decompose4 single probPrime n) n := by
  unfold decompose4
  rw [if_neg (by omega)]
  by_cases h1 : n ≤ 1
  · rw [if_pos h1]
    refine Or.inr ⟨_, rfl, sum4 (le_refl _) (le_refl _) (le_refl _) hn ?_⟩
    have : n = 0 ∨ n = 1 := by omega
    rcases this with rfl | rfl <;> norm_num
  · rw [if_neg h1]
    obtain ⟨hr1, hr2⟩ := removeFours_spec n.toNat 1 (by omega) one_ne_zero
    obtain ⟨m, hm⟩ : ∃ m, m = (removeFours n.toNat 1).1 := ⟨_, rfl⟩
    obtain ⟨w, hw⟩ : ∃ w, w = (removeFours n.toNat 1).2 := ⟨_, rfl⟩
    have hrw : removeFours n.toNat 1 = (m, w) := by rw [hm, hw]
    rw [← hm, ← hw] at hr1
    rw [← hm] at hr2
    have hnm : n = (w : ℤ) ^ 2 * m := by
      have h2 : ((m * w ^ 2 : ℕ) : ℤ) = ((n.toNat * 1 ^ 2 : ℕ) : ℤ) := by rw [hr1]
      push_cast at h2
      have h3 : ((n.toNat : ℕ) : ℤ) = n := by omega
      linarith
    simp only [hrw]
    obtain ⟨s, hs⟩ : ∃ s, s = sqrRoot m := ⟨_, rfl⟩
    obtain ⟨hs0, hs1, hs2⟩ := sqrRoot_spec m (by omega)
    rw [← hs] at hs0 hs1 hs2 ⊢
    have hw0 : (0 : ℤ) ≤ w := by omega
    by_cases hp : (m : ℤ) - s * s = 0
    · rw [if_pos hp, hp]
      refine Or.inr ⟨_, rfl, sum4 (le_refl _) (le_refl _) (le_refl _) (mul_nonneg hs0 hw0) ?_⟩
      rw [hnm]
      linear_combination (-(w : ℤ) ^ 2) * hp
    · rw [if_neg hp]
      have hs' : 1 ≤ s := by
        by_contra hc
        have : s = 0 := by omega
        subst this
        have : (m : ℤ) < 1 := by simpa using hs2
        omega
      have hrest : Outcome (if (m : ℤ) % 8 = 7 then
            let (delta, n) := if s % 4 = 0 then (s - 1, (m : ℤ) - s * s + ((s - 1) * 2 + 1))
              else (s, (m : ℤ) - s * s)
            let sq := sqrRoot ((m : ℤ) - s * s)
            let p := n - sq * sq
            decompose4Search single probPrime delta w n sq p
          else decompose4Search single probPrime 0 w m s ((m : ℤ) - s * s)) n := by
        by_cases h8 : (m : ℤ) % 8 = 7
        · rw [if_pos h8]
          obtain ⟨hq0, hq1, hq2⟩ := sqrRoot_spec ((m : ℤ) - s * s) (by omega)
          have hq' : 1 ≤ sqrRoot ((m : ℤ) - s * s) := by
            by_contra hc
            have h0 : sqrRoot ((m : ℤ) - s * s) = 0 := by omega
            rw [h0] at hq2
            omega
          have hsq8 : s * s % 8 = if s % 2 = 1 then 1 else if s % 4 = 0 then 0 else 4 := by
            have h1 : s * s % 8 = (s % 8) * (s % 8) % 8 := Int.mul_emod s s 8
            have h2 : 0 ≤ s % 8 := by omega
            have h3 : s % 8 < 8 := by omega
            obtain ⟨r, hr⟩ : ∃ r, r = s % 8 := ⟨_, rfl⟩
            rw [h1, ← hr]
            rw [← hr] at h2 h3
            have h5 : s % 2 = r % 2 := by omega
            have h6 : s % 4 = r % 4 := by omega
            rw [h5, h6]
            interval_cases r <;> decide
          by_cases h4 : s % 4 = 0
          · simp only [h4, if_true]
            rw [if_neg (by omega), if_pos h4] at hsq8
            rw [hnm, show (m : ℤ) = (s - 1) ^ 2 + ((m : ℤ) - s * s + ((s - 1) * 2 + 1)) by ring]
            rw [show (s - 1) ^ 2 + ((m : ℤ) - s * s + ((s - 1) * 2 + 1)) - s * s = (m : ℤ) - s * s by
              ring] 
            apply search_ok hP (by omega) hw0 hq' (by ring) (by omega) (by omega)
          · simp only [h4, if_false]
            rw [if_neg h4] at hsq8
            rw [hnm, show (m : ℤ) = s ^ 2 + ((m : ℤ) - s * s) by ring]
            rw [show s ^ 2 + ((m : ℤ) - s * s) - s * s = (m : ℤ) - s * s by ring]
            apply search_ok hP (by omega) hw0 hq' (by ring)
            · split at hsq8 <;> omega
            · split at hsq8 <;> omega
        · rw [if_neg h8, hnm, show (m : ℤ) = 0 ^ 2 + m by ring]
          rw [show (0 : ℤ) ^ 2 + m = m by ring]
          have := search_ok (single := single) (delta := 0) (v := w) (n := m) (sq := s)
            (p := (m : ℤ) - s * s) hP (le_refl 0) hw0 hs' (by ring) (by omega) h8
          rwa [show (0 : ℤ) ^ 2 + m = m by ring] at this
      by_cases hpr : (m : ℤ) % 4 = 1 ∧ probPrime m = true
      · rw [if_pos hpr]
        obtain ⟨y, z, h2, hy, hz, h3⟩ := dpp_test (single := single) hP hpr.2 hpr.1
        simp only [h2, Res.ok_bind, Res.pure_eq]
        by_cases hz0 : z ≠ 0
        · simp only [hz0, if_true, ne_eq, not_false_eq_true]
          refine Or.inr ⟨_, rfl, ?_⟩
          rw [hnm]
          apply sortScaled_ok (sum4 (le_refl _) (le_refl _) hy hz ?_) hw0
          rw [← h3 hz0]; ring
        · simp only [hz0, if_false]
          exact hrest
      · rw [if_neg hpr]
        exact hrest

end Verif.FourSq
