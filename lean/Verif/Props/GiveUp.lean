/-
C90: how rarely key generation and encryption give up, and what their rejection samplers return.
-/
import Verif.Props.TailRound
import Verif.Lemmas.Chebyshev
import Verif.Spec.GiveUp
import Mathlib.Logic.Equiv.Fin.Basic

namespace Verif.Props
open Spec Regev
open scoped BigOperators

section
variable {q : ℕ} [Fact q.Prime]

/-! ### Counting -/

theorem card_split {α β : Type} [Finite α] [Finite β] (p r : α → Prop) (s : β → Prop) (h : ∀ a, p a → ¬ r a) :
    Nat.card {z : α × β // p z.1 ∨ (r z.1 ∧ s z.2)} =
      Nat.card {a // p a} * Nat.card β + Nat.card {a // r a} * Nat.card {b // s b} := by
  classical
  rw [← Nat.card_prod, ← Nat.card_prod, ← Nat.card_sum]
  refine Nat.card_congr
    { toFun := fun z => if hp : p z.1.1 then Sum.inl (⟨z.1.1, hp⟩, z.1.2) else
        Sum.inr (⟨z.1.1, (z.2.resolve_left hp).1⟩, ⟨z.1.2, (z.2.resolve_left hp).2⟩)
      invFun := fun w => match w with
        | .inl w => ⟨(w.1.1, w.2), Or.inl w.1.2⟩
        | .inr w => ⟨(w.1.1, w.2.1), Or.inr ⟨w.1.2, w.2.2⟩⟩
      left_inv := ?_
      right_inv := ?_ }
  · rintro ⟨⟨a, b⟩, hz⟩
    by_cases hp : p a
    · simp [hp]
    · simp [hp]
  · rintro (⟨⟨a, ha⟩, b⟩ | ⟨⟨a, ha⟩, ⟨b, hb⟩⟩)
    · simp [ha]
    · have : ¬ p a := fun hp => h a hp ha
      simp [this]

theorem card_cons {A : Type} [Finite A] (T : ℕ) (p : (Fin (T + 1) → A) → Prop) :
    Nat.card {x // p x} = Nat.card {z : A × (Fin T → A) // p (Fin.cons z.1 z.2)} :=
  Nat.card_congr ((Fin.consEquiv fun _ => A).subtypeEquiv fun _ => Iff.rfl).symm

theorem sampleLoop_shift (len n : ℕ) (bound : ℤ) (rnd : Rnd) (k t : ℕ) :
    sampleLoop (q := q) (ell := 2) len n bound rnd (t + 1) k = sampleLoop len n bound (fun s => rnd (s + 1)) t k := by
  induction k generalizing t with
  | zero => rfl
  | succ k ih =>
    unfold sampleLoop
    simp only
    rw [ih]

theorem sampleLoop_cons (len n : ℕ) (bound : ℤ) {T : ℕ} (y : TrialBits len n) (x : LoopBits T len n) :
    sampleLoop (q := q) len n bound (rndOf (Fin.cons y x : LoopBits (T + 1) len n)) 0 (T + 1) =
      if normSq (coeffs (drawnBy q y)) ≤ bound then .ok (drawnBy q y) else sampleLoop len n bound (rndOf x) 0 T := by
  have h0 : rndOf (Fin.cons y x : LoopBits (T + 1) len n) 0 = trialOf y := by
    unfold rndOf
    rw [dif_pos (Nat.succ_pos T)]
    rfl
  have h1 : (fun s => rndOf (Fin.cons y x : LoopBits (T + 1) len n) (s + 1)) = rndOf x := by
    funext s
    unfold rndOf
    by_cases hs : s < T
    · rw [dif_pos hs, dif_pos (by omega)]
      rfl
    · rw [dif_neg hs, dif_neg (by omega)]
  rw [sampleLoop]
  rw [sampleLoop_shift, h1, h0, normSquaredE_eq]
  rfl

/-- **C90, trials.** A loop gives up on exactly the choices of its random bits with which each of its trials draws a vector
that is too long: the number of these is a power of the number for one trial. -/
theorem C90_trials (len n : ℕ) (bound : ℤ) (T : ℕ) :
    Nat.card {x : LoopBits T len n // sampleLoop (q := q) (ell := 2) len n bound (rndOf x) 0 T = .throw} =
      Nat.card {y : TrialBits len n // bound < normSq (coeffs (drawnBy q y))} ^ T := by
  induction T with
  | zero =>
    rw [pow_zero]
    simp only [sampleLoop, Nat.card_eq_fintype_card, Fintype.card_subtype_true]
    rw [Fintype.card_eq_one_iff]
    exact ⟨fun i => i.elim0, fun y => funext fun i => i.elim0⟩
  | succ T ih =>
    rw [card_cons, pow_succ, ← ih]
    have := card_split (β := LoopBits T len n) (fun _ : TrialBits len n => False)
      (fun y => bound < normSq (coeffs (drawnBy q y)))
      (fun x => sampleLoop (q := q) (ell := 2) len n bound (rndOf x) 0 T = .throw) (fun _ h => h.elim)
    simp only [false_or] at this
    have h0 : Nat.card {a : TrialBits len n // False} = 0 := Nat.card_of_isEmpty
    rw [h0, zero_mul, zero_add] at this
    rw [mul_comm, ← this]
    refine Nat.card_congr (Equiv.subtypeEquivRight fun z => ?_)
    rw [sampleLoop_cons]
    by_cases hz : normSq (coeffs (drawnBy q z.1)) ≤ bound
    · rw [if_pos hz]
      constructor
      · intro h; cases h
      · intro h; exact absurd h.1 (not_lt.2 hz)
    · rw [if_neg hz]
      exact ⟨fun h => ⟨not_le.1 hz, h⟩, fun h => h.2⟩

/-- **C90, distribution.** What a loop returns is distributed as what one trial draws, given that it is short enough: the
number of choices of the random bits of the loop with which it returns a vector is the number of choices for one trial
that draw this vector, times a factor that is the same for all vectors that are short enough; and zero for the others. -/
theorem C90_distribution (len n : ℕ) (bound : ℤ) (T : ℕ) (v : EVec q 2) :
    Nat.card {x : LoopBits T len n // sampleLoop (q := q) (ell := 2) len n bound (rndOf x) 0 T = .ok v} =
      if normSq (coeffs v) ≤ bound then Nat.card {y : TrialBits len n // drawnBy q y = v} *
        ∑ j ∈ Finset.range T, Nat.card {y : TrialBits len n // bound < normSq (coeffs (drawnBy q y))} ^ j *
          Nat.card (TrialBits len n) ^ (T - 1 - j) else 0 := by
  induction T with
  | zero =>
    have : IsEmpty {x : LoopBits 0 len n // sampleLoop (q := q) (ell := 2) len n bound (rndOf x) 0 0 = .ok v} :=
      ⟨fun x => by cases x.2⟩
    rw [Nat.card_of_isEmpty]
    simp
  | succ T ih =>
    rw [card_cons]
    have hs := card_split (β := LoopBits T len n)
      (fun y : TrialBits len n => normSq (coeffs (drawnBy q y)) ≤ bound ∧ drawnBy q y = v)
      (fun y => bound < normSq (coeffs (drawnBy q y)))
      (fun x => sampleLoop (q := q) (ell := 2) len n bound (rndOf x) 0 T = .ok v) (fun y h => not_lt.2 h.1)
    have hc : Nat.card {z : TrialBits len n × LoopBits T len n //
        sampleLoop (q := q) (ell := 2) len n bound (rndOf (Fin.cons z.1 z.2 : LoopBits (T + 1) len n)) 0 (T + 1) = .ok v} =
        Nat.card {z : TrialBits len n × LoopBits T len n //
          (normSq (coeffs (drawnBy q z.1)) ≤ bound ∧ drawnBy q z.1 = v) ∨ (bound < normSq (coeffs (drawnBy q z.1)) ∧
            sampleLoop (q := q) (ell := 2) len n bound (rndOf z.2) 0 T = .ok v)} := by
      refine Nat.card_congr (Equiv.subtypeEquivRight fun z => ?_)
      rw [sampleLoop_cons]
      by_cases hz : normSq (coeffs (drawnBy q z.1)) ≤ bound
      · rw [if_pos hz]
        constructor
        · intro h; exact Or.inl ⟨hz, Res.ok.inj h⟩
        · rintro (h | h)
          · rw [h.2]
          · exact absurd h.1 (not_lt.2 hz)
      · rw [if_neg hz]
        constructor
        · intro h; exact Or.inr ⟨not_le.1 hz, h⟩
        · rintro (h | h)
          · exact absurd h.1 hz
          · exact h.2
    rw [hc, hs, ih]
    have hL : Nat.card (LoopBits T len n) = Nat.card (TrialBits len n) ^ T := by
      rw [Nat.card_fun, Nat.card_eq_fintype_card (α := Fin T), Fintype.card_fin]
    by_cases hv : normSq (coeffs v) ≤ bound
    · rw [if_pos hv, if_pos hv]
      have h1 : Nat.card {y : TrialBits len n // normSq (coeffs (drawnBy q y)) ≤ bound ∧ drawnBy q y = v} =
          Nat.card {y : TrialBits len n // drawnBy q y = v} :=
        Nat.card_congr (Equiv.subtypeEquivRight fun y => ⟨fun h => h.2, fun h => ⟨by rw [h]; exact hv, h⟩⟩)
      rw [h1, hL, Finset.sum_range_succ', pow_zero, one_mul, Nat.add_sub_cancel, Nat.sub_zero, mul_add, add_comm]
      congr 1
      rw [mul_left_comm, Finset.mul_sum]
      congr 1
      refine Finset.sum_congr rfl fun j hj => ?_
      have : T - (j + 1) = T - 1 - j := by omega
      rw [this, pow_succ]
      ring
    · rw [if_neg hv, if_neg hv]
      have h1 : IsEmpty {y : TrialBits len n // normSq (coeffs (drawnBy q y)) ≤ bound ∧ drawnBy q y = v} :=
        ⟨fun y => hv (by rw [← y.2.2]; exact y.2.1)⟩
      rw [Nat.card_of_isEmpty]
      simp

/-! ### One trial -/

theorem norm_drawn {len n : ℕ} (y : TrialBits len n) :
    (normSq (coeffs (drawnBy q y)) : ℝ) ≤ ∑ p : Fin len × Fin 2, bitSq (y p.1 p.2) := by
  rw [normSq_coeffs]
  have hlen : (drawnBy q y).length = len := by simp [drawnBy]
  rw [hlen, Fintype.sum_prod_type, ← Fin.sum_univ_eq_sum_range (fun i => ∑ s : Fin 2,
    (((drawnBy q y).getD i ⟨fun _ => 0⟩).c s).valMinAbs ^ 2)]
  push_cast
  refine Finset.sum_le_sum fun i _ => Finset.sum_le_sum fun s _ => ?_
  have : ((drawnBy q y).getD i.val ⟨fun _ => 0⟩).c s =
      (((if (y i s).2 then -((y i s).1.val : ℤ) else (y i s).1.val : ℤ)) : ZMod q) := by
    unfold drawnBy
    rw [List.getD_eq_getElem _ _ (by simp), List.getElem_map, List.getElem_range]
    unfold boundedElement boundedScalar trialOf
    simp only [i.2, s.2, and_self, dif_pos, Fin.eta]
    rw [Nat.mod_eq_of_lt (y i s).1.2]
  rw [this]
  have hle := valMinAbs_le (q := q) (if (y i s).2 then -((y i s).1.val : ℤ) else (y i s).1.val : ℤ)
  have habs : |(if (y i s).2 then -((y i s).1.val : ℤ) else (y i s).1.val : ℤ)| = (y i s).1.val := by
    split
    · rw [abs_neg, Nat.abs_cast]
    · rw [Nat.abs_cast]
  rw [habs] at hle
  unfold bitSq
  rw [← sq_abs]
  exact pow_le_pow_left₀ (abs_nonneg _) (by exact_mod_cast hle) 2

theorem card_curry {len n : ℕ} (p : (Fin len × Fin 2 → Fin (2 ^ n) × Bool) → Prop) :
    Nat.card {y : TrialBits len n // p fun i => y i.1 i.2} = Nat.card {x // p x} :=
  Nat.card_congr ((Equiv.curry (Fin len) (Fin 2) (Fin (2 ^ n) × Bool)).symm.subtypeEquiv fun _ => Iff.rfl)

theorem card_trial (len n : ℕ) : Nat.card (TrialBits len n) = Nat.card (Fin len × Fin 2 → Fin (2 ^ n) × Bool) :=
  Nat.card_congr (Equiv.curry (Fin len) (Fin 2) (Fin (2 ^ n) × Bool)).symm

theorem trial_half (len n : ℕ) :
    Rare (5 * len) 8 fun y : TrialBits len n => (4 ^ n * len : ℤ) < normSq (coeffs (drawnBy q y)) := by
  have h := half_count (ι := Fin len × Fin 2) (2 ^ n) (Nat.two_pow_pos n)
  have hi : Nat.card {y : TrialBits len n // (4 ^ n * len : ℤ) < normSq (coeffs (drawnBy q y))} ≤
      Nat.card {x : Fin len × Fin 2 → Fin (2 ^ n) × Bool //
        (Fintype.card (Fin len × Fin 2) : ℝ) * ((2 ^ n : ℕ) : ℝ) ^ 2 / 2 < ∑ i, bitSq (x i)} := by
    rw [← card_curry]
    refine card_imp fun y hy => ?_
    refine lt_of_lt_of_le ?_ (norm_drawn (q := q) y)
    have : ((4 ^ n * len : ℤ) : ℝ) < normSq (coeffs (drawnBy q y)) := by exact_mod_cast hy
    refine lt_of_eq_of_lt ?_ this
    rw [Fintype.card_prod, Fintype.card_fin, Fintype.card_fin]
    push_cast
    rw [← pow_mul, mul_comm n 2, pow_mul]
    norm_num
    ring
  unfold Rare
  rw [card_trial]
  rw [Fintype.card_prod, Fintype.card_fin, Fintype.card_fin] at h
  have := Nat.mul_le_mul_right (5 * (len * 2)) hi
  rw [Fintype.card_prod, Fintype.card_fin, Fintype.card_fin] at this
  show Nat.card {y : TrialBits len n // (4 ^ n * len : ℤ) < normSq (coeffs (drawnBy q y))} * (5 * len) ≤ _
  linarith

theorem trial_key (len : ℕ) :
    Rare (2 * len) 49 fun y : TrialBits len 2 => (8 * len : ℤ) < normSq (coeffs (drawnBy q y)) := by
  have h := two_bits_count (ι := Fin len × Fin 2)
  have hi : Nat.card {y : TrialBits len 2 // (8 * len : ℤ) < normSq (coeffs (drawnBy q y))} ≤
      Nat.card {x : Fin len × Fin 2 → Fin 4 × Bool //
        (Fintype.card (Fin len × Fin 2) : ℝ) * 4 < ∑ i, bitSq (x i)} := by
    refine le_trans ?_ (le_of_eq (card_curry (n := 2) fun x => (Fintype.card (Fin len × Fin 2) : ℝ) * 4 < ∑ i, bitSq (x i)))
    refine card_imp fun y hy => ?_
    refine lt_of_lt_of_le ?_ (norm_drawn (q := q) y)
    have : ((8 * len : ℤ) : ℝ) < normSq (coeffs (drawnBy q y)) := by exact_mod_cast hy
    refine lt_of_eq_of_lt ?_ this
    rw [Fintype.card_prod, Fintype.card_fin, Fintype.card_fin]
    push_cast
    ring
  unfold Rare
  rw [card_trial]
  rw [Fintype.card_prod, Fintype.card_fin, Fintype.card_fin] at h
  have := Nat.mul_le_mul_right (len * 2) hi
  rw [Fintype.card_prod, Fintype.card_fin, Fintype.card_fin] at this
  have e : Nat.card (Fin len × Fin 2 → Fin (2 ^ 2) × Bool) = Nat.card (Fin len × Fin 2 → Fin 4 × Bool) := rfl
  rw [e]
  show Nat.card {y : TrialBits len 2 // (8 * len : ℤ) < normSq (coeffs (drawnBy q y))} * (2 * len) ≤ _
  linarith

theorem loop_rare {len n T c d : ℕ} {bound : ℤ}
    (h : Rare d c fun y : TrialBits len n => bound < normSq (coeffs (drawnBy q y))) :
    Rare (d ^ T) (c ^ T) fun x : LoopBits T len n => sampleLoop (q := q) (ell := 2) len n bound (rndOf x) 0 T = .throw := by
  unfold Rare at *
  rw [C90_trials, ← mul_pow]
  have hL : Nat.card (LoopBits T len n) = Nat.card (TrialBits len n) ^ T := by
    rw [Nat.card_fun, Nat.card_eq_fintype_card (α := Fin T), Fintype.card_fin]
  rw [hL, ← mul_pow]
  exact Nat.pow_le_pow_left h T

/-- **C90, noise.** A loop that draws `len` elements of `n` bits until the squared norm is at most half of the largest
possible one gives up after `T` trials for at most a fraction `(8/(5·len))^T` of the random bits. -/
theorem C90_noise (len n T : ℕ) :
    Nat.card {x : LoopBits T len n // sampleLoop (q := q) (ell := 2) len n (4 ^ n * len) (rndOf x) 0 T = .throw} *
      (5 * len) ^ T ≤ 8 ^ T * Nat.card (LoopBits T len n) :=
  loop_rare (trial_half len n)

/-- **C90, keys.** A loop that draws `len` elements of two bits until the squared norm is at most `8·len` gives up after `T`
trials for at most a fraction `(49/(2·len))^T` of the random bits. -/
theorem C90_keys (len T : ℕ) :
    Nat.card {x : LoopBits T len 2 // sampleLoop (q := q) (ell := 2) len 2 (8 * len) (rndOf x) 0 T = .throw} *
      (2 * len) ^ T ≤ 49 ^ T * Nat.card (LoopBits T len 2) :=
  loop_rare (trial_key len)

/-! ### Key generation, encryption, the driver program -/

theorem Rare.scale {α : Type} {d c T : ℕ} {p : α → Prop} (h : Rare d c p) (hd : 0 < d) (hT : c * T ≤ d) : Rare T 1 p := by
  unfold Rare at *
  rw [one_mul]
  refine Nat.le_of_mul_le_mul_left ?_ hd
  calc d * (Nat.card {a // p a} * T) = (Nat.card {a // p a} * d) * T := by ring
    _ ≤ c * Nat.card α * T := Nat.mul_le_mul_right _ h
    _ = c * T * Nat.card α := by ring
    _ ≤ d * Nat.card α := Nat.mul_le_mul_right _ hT

theorem Rare.any {α : Type} [Finite α] {T c : ℕ} {p : α → Prop} (h : Rare T c p) (n : ℕ) :
    Rare T (n * c) fun x : Fin n → α => ∃ i, p (x i) := by
  induction n with
  | zero =>
    unfold Rare
    have : IsEmpty {x : Fin 0 → α // ∃ i, p (x i)} := ⟨fun x => x.2.choose.elim0⟩
    rw [Nat.card_of_isEmpty]
    simp
  | succ n ih =>
    have h1 := Rare.or h ih
    unfold Rare at h1 ⊢
    rw [card_cons]
    have e1 : Nat.card {z : α × (Fin n → α) // ∃ i, p ((Fin.cons z.1 z.2 : Fin (n + 1) → α) i)} =
        Nat.card {z : α × (Fin n → α) // p z.1 ∨ ∃ i, p (z.2 i)} :=
      Nat.card_congr (Equiv.subtypeEquivRight fun z => by
        rw [Fin.exists_fin_succ]
        simp only [Fin.cons_zero, Fin.cons_succ])
    have e2 : Nat.card (Fin (n + 1) → α) = Nat.card (α × (Fin n → α)) :=
      Nat.card_congr (Fin.consEquiv fun _ => α).symm
    rw [e1, e2, Nat.succ_mul, Nat.add_comm (n * c)]
    exact h1

instance finite_loop (T len n : ℕ) : Finite (LoopBits T len n) := inferInstance

instance finite_enc (gk : GlobalKey q 2) : Finite (EncBits gk) :=
  @Finite.instProd _ _ (finite_loop _ _ _) (@Finite.instProd _ _ (finite_loop _ _ _) (finite_loop _ _ _))

theorem key_bad {gk : GlobalKey q 2} {T : ℕ} (h1 : 49 ^ 51 * T ≤ (2 * gk.kay) ^ 51) (h2 : 8 ^ 51 * T ≤ (5 * gk.kay) ^ 51)
    (hk : 0 < gk.kay) : Rare T 2 fun x : KeyBits gk => ¬ KeyCoins gk (keyCoinsOf x) := by
  have r1 := Rare.scale (loop_rare (T := 51) (trial_key (q := q) gk.kay)) (by positivity) h1
  have r2 := Rare.scale (loop_rare (T := 51) (trial_half (q := q) gk.kay gk.sigmaEnc1)) (by positivity) h2
  refine Rare.imp (Rare.or r1 r2) fun x hx => ?_
  unfold KeyCoins at hx
  by_cases h : Drawn q gk.kay 2 (8 * gk.kay) (keyCoinsOf x).1 51
  · exact Or.inr ((drawn_total _ _ _ _ _).2 fun h' => hx ⟨h, h'⟩)
  · exact Or.inl ((drawn_total _ _ _ _ _).2 h)

theorem enc_bad {gk : GlobalKey q 2} {T : ℕ} (h1 : 49 ^ 51 * T ≤ (2 * gk.kay) ^ 51) (h2 : 8 ^ 25 * T ≤ (5 * gk.kay) ^ 25)
    (h3 : 8 ^ 25 * T ≤ (5 * gk.enn) ^ 25) (hk : 0 < gk.kay) (hn : 0 < gk.enn) :
    Rare T 3 fun x : EncBits gk => ¬ EncCoins gk (encCoinsOf x) := by
  have r1 := Rare.scale (loop_rare (T := 51) (trial_key (q := q) gk.kay)) (by positivity) h1
  have r2 := Rare.scale (loop_rare (T := 25) (trial_half (q := q) gk.kay gk.sigmaEnc1)) (by positivity) h2
  have r3 := Rare.scale (loop_rare (T := 25) (trial_half (q := q) gk.enn gk.sigmaEnc2)) (by positivity) h3
  refine Rare.imp (Rare.or r1 (Rare.or r2 r3)) fun x hx => ?_
  unfold EncCoins at hx
  by_cases h : Drawn q gk.kay 2 (8 * gk.kay) (encCoinsOf x).1 51
  · by_cases h' : Drawn q gk.kay gk.sigmaEnc1 (4 ^ gk.sigmaEnc1 * gk.kay) (encCoinsOf x).2.1 25
    · exact Or.inr (Or.inr ((drawn_total _ _ _ _ _).2 fun h'' => hx ⟨h, h', h''⟩))
    · exact Or.inr (Or.inl ((drawn_total _ _ _ _ _).2 h'))
  · exact Or.inl ((drawn_total _ _ _ _ _).2 h)

theorem pow_large {k : ℕ} (hk : 2048 ≤ k) : 49 ^ 51 * 2 ^ 250 * 2 ≤ (2 * k) ^ 51 ∧ 8 ^ 51 * 2 ^ 250 * 2 ≤ (5 * k) ^ 51 ∧
    8 ^ 25 * 2 ^ 250 ≤ (5 * k) ^ 25 :=
  ⟨le_trans (by norm_num) (Nat.pow_le_pow_left (Nat.mul_le_mul_left 2 hk) 51),
    le_trans (by norm_num) (Nat.pow_le_pow_left (Nat.mul_le_mul_left 5 hk) 51),
    le_trans (by norm_num) (Nat.pow_le_pow_left (Nat.mul_le_mul_left 5 hk) 25)⟩

theorem num_two {B A : ℕ} (h : B * (2 ^ 250 * 2) ≤ 2 * A) : B * 2 ^ 250 ≤ A := by
  generalize 2 ^ 250 = t at h ⊢
  nlinarith

theorem num_38 {B B' A : ℕ} (h : B ≤ B') (h' : B' * 2 ^ 38 ≤ 5 * A) : B * 2 ^ 35 ≤ A := by
  rw [show 2 ^ 38 = 8 * 2 ^ 35 by norm_num] at h'
  generalize 2 ^ 35 = t at h' ⊢
  nlinarith [Nat.mul_le_mul_right t h]

theorem num_103 {B B' A : ℕ} (h : B ≤ B') (h' : B' * 2 ^ 103 ≤ 5 * A) : B * 2 ^ 100 ≤ A := by
  rw [show 2 ^ 103 = 8 * 2 ^ 100 by norm_num] at h'
  generalize 2 ^ 100 = t at h' ⊢
  nlinarith [Nat.mul_le_mul_right t h]

/-- **C90, key generation.** With a dimension of 2048 or more (the program's own parameters are in this range), key
generation gives up for at most a fraction `2^-250` of its random bits, and succeeds for all others. -/
theorem C90_keygen {gk : GlobalKey q 2} (hs : Shaped gk) (hk : 2048 ≤ gk.kay) :
    Nat.card {x : KeyBits gk // ¬ ∃ r, gk.keyGen (keyCoinsOf x).1 (keyCoinsOf x).2 = .ok r} * 2 ^ 250 ≤
      Nat.card (KeyBits gk) := by
  obtain ⟨p1, p2, -⟩ := pow_large hk
  have h := Rare.imp (key_bad (gk := gk) (T := 2 ^ 250 * 2) (le_trans (le_of_eq (mul_assoc _ _ _).symm) p1)
    (le_trans (le_of_eq (mul_assoc _ _ _).symm) p2) (by omega)) (p :=
    fun x => ¬ ∃ r, gk.keyGen (keyCoinsOf x).1 (keyCoinsOf x).2 = .ok r) fun x hx hc => hx ((keyGen_total hs _).1 hc)
  have h' : Nat.card {x : KeyBits gk // ¬ ∃ r, gk.keyGen (keyCoinsOf x).1 (keyCoinsOf x).2 = .ok r} * (2 ^ 250 * 2) ≤
      2 * Nat.card (KeyBits gk) := h
  exact num_two h'

/-- **C90, encryption.** With a dimension of 2048 or more, and a number of parties for which `2^e·(8/(5·n))^25 ≤ 1`,
encryption gives up for at most a fraction `3·2^-e` of its random bits, and succeeds for all others. -/
theorem C90_encrypt {gk : GlobalKey q 2} (hs : Shaped gk) (hk : 2048 ≤ gk.kay) (hn : 0 < gk.enn) (e : ℕ) (he : e ≤ 250)
    (h : 8 ^ 25 * 2 ^ e ≤ (5 * gk.enn) ^ 25) (delta : ℕ) (ptxt : List (ZMod q)) (hp : ptxt.length = gk.enn) :
    Nat.card {x : EncBits gk // ¬ ∃ r, gk.encrypt delta ptxt (encCoinsOf x).1 (encCoinsOf x).2.1 (encCoinsOf x).2.2 = .ok r} *
      2 ^ e ≤ 3 * Nat.card (EncBits gk) := by
  obtain ⟨p1, p2, p3⟩ := pow_large hk
  have hle : 2 ^ e ≤ 2 ^ 250 := Nat.pow_le_pow_right (by norm_num) he
  have q1 : 49 ^ 51 * 2 ^ e ≤ (2 * gk.kay) ^ 51 := by
    refine le_trans (Nat.mul_le_mul_left _ (hle.trans ?_)) (le_trans (le_of_eq (mul_assoc _ _ _).symm) p1)
    norm_num
  have q2 : 8 ^ 25 * 2 ^ e ≤ (5 * gk.kay) ^ 25 := (Nat.mul_le_mul_left _ hle).trans p3
  exact Rare.imp (enc_bad q1 q2 h (by omega) hn) (p := fun x => ¬ ∃ r, gk.encrypt delta ptxt (encCoinsOf x).1
    (encCoinsOf x).2.1 (encCoinsOf x).2.2 = .ok r) fun x hx hc => hx ((encrypt_total hs hp _).1 hc)

theorem coins_bad {gk : GlobalKey q 2} (hk : 2048 ≤ gk.kay) (hn0 : 0 < gk.enn) (hn : gk.enn < 2 ^ 30) (e : ℕ) (he : e ≤ 200)
    (h : 8 ^ 25 * (2 ^ e * (gk.enn + 1)) ≤ (5 * gk.enn) ^ 25) (secret : ZMod q) (shares : ℕ → ZMod q) :
    Nat.card {x : ProgramBits gk // ¬ CoinsOk gk (coinsOf secret shares x)} * 2 ^ e ≤ 5 * Nat.card (ProgramBits gk) := by
  obtain ⟨p1, p2, p3⟩ := pow_large hk
  have hle : 2 ^ e * (gk.enn + 1) ≤ 2 ^ 230 := by
    calc 2 ^ e * (gk.enn + 1) ≤ 2 ^ 200 * 2 ^ 30 := Nat.mul_le_mul (Nat.pow_le_pow_right (by norm_num) he) (by omega)
      _ = 2 ^ 230 := by norm_num
  have q1 : 49 ^ 51 * (2 ^ e * (gk.enn + 1)) ≤ (2 * gk.kay) ^ 51 := by
    refine le_trans (Nat.mul_le_mul_left _ (hle.trans ?_)) (le_trans (le_of_eq (mul_assoc _ _ _).symm) p1)
    norm_num
  have q1' : 8 ^ 51 * (2 ^ e * (gk.enn + 1)) ≤ (5 * gk.kay) ^ 51 := by
    refine le_trans (Nat.mul_le_mul_left _ (hle.trans ?_)) (le_trans (le_of_eq (mul_assoc _ _ _).symm) p2)
    norm_num
  have q2 : 8 ^ 25 * (2 ^ e * (gk.enn + 1)) ≤ (5 * gk.kay) ^ 25 :=
    le_trans (Nat.mul_le_mul_left _ (hle.trans (by norm_num))) p3
  have r1 := Rare.any (key_bad (gk := gk) q1 q1' (by omega)) gk.enn
  have r2 := enc_bad (gk := gk) q1 q2 h (by omega) hn0
  have r := Rare.imp (Rare.or r1 (Rare.or (Rare.any r2 gk.enn) r2)) (p := fun x : ProgramBits gk =>
    ¬ CoinsOk gk (coinsOf secret shares x)) (by
      intro x hx
      by_contra hc
      push Not at hc
      obtain ⟨c1, c2, c3⟩ := hc
      refine hx ⟨fun i hi => ?_, fun i hi => ?_, c3⟩
      · simp only [coinsOf, dif_pos hi]
        exact c1 ⟨i, hi⟩
      · simp only [coinsOf, dif_pos hi]
        exact c2 ⟨i, hi⟩)
  unfold Rare at r
  generalize Nat.card {x : ProgramBits gk // ¬ CoinsOk gk (coinsOf secret shares x)} = B at r ⊢
  generalize Nat.card (ProgramBits gk) = A at r ⊢
  refine Nat.le_of_mul_le_mul_right (c := gk.enn + 1) ?_ (by omega)
  calc B * 2 ^ e * (gk.enn + 1) = B * (2 ^ e * (gk.enn + 1)) := by ring
    _ ≤ _ := r
    _ ≤ 5 * A * (gk.enn + 1) := by nlinarith

theorem pow_parties {n m e : ℕ} (hm : 0 < m) (hmn : m ≤ n) (h : 8 ^ 25 * 2 ^ e * (m + 1) ≤ (5 * m) ^ 25) :
    8 ^ 25 * (2 ^ e * (n + 1)) ≤ (5 * n) ^ 25 := by
  have h1 : m * (n + 1) ≤ (m + 1) * n := by nlinarith
  have h2 : m ^ 24 ≤ n ^ 24 := Nat.pow_le_pow_left hmn 24
  refine Nat.le_of_mul_le_mul_left ?_ hm
  calc m * (8 ^ 25 * (2 ^ e * (n + 1))) = 8 ^ 25 * 2 ^ e * (m * (n + 1)) := by ring
    _ ≤ 8 ^ 25 * 2 ^ e * ((m + 1) * n) := Nat.mul_le_mul_left _ h1
    _ = 8 ^ 25 * 2 ^ e * (m + 1) * n := by ring
    _ ≤ (5 * m) ^ 25 * n := Nat.mul_le_mul_right _ h
    _ = m * (5 ^ 25 * m ^ 24 * n) := by ring
    _ ≤ m * (5 ^ 25 * n ^ 24 * n) := Nat.mul_le_mul_left _ (Nat.mul_le_mul_right _ (Nat.mul_le_mul_left _ h2))
    _ = m * (5 * n) ^ 25 := by ring

end

theorem standard_kay {gk : GlobalKey Regev.P 2} {n : ℕ} (hst : Standard gk n) (h5 : 5 ≤ n) (hn : n < 2 ^ 30) :
    2048 ≤ gk.kay := by
  obtain ⟨Q, hQ, -⟩ := hst.sizes h5 hn
  have := hQ.kk_lo
  have h : (4096 : ℝ) ≤ ((gk.kay * 2 : ℕ) : ℝ) := by push_cast; linarith
  have : 4096 ≤ gk.kay * 2 := by exact_mod_cast h
  omega

/-- **C90, program.** With the parameters that the program chooses itself, the steps before the proofs (all keys, all
encryptions, decryption and the encryption of the new shares) fail for at most a fraction `2^-35` of the random bits, and
for at most `2^-100` if there are 33 or more parties. -/
theorem C90_program (n : ℕ) (h5 : 5 ≤ n) (hn : n < 2 ^ 30) (crs : ℕ → ℕ → Elt (ZMod Regev.P) 2)
    (gk : GlobalKey Regev.P 2)
    (hnew : GlobalKey.new (setParams 2 n).1 n (setParams 2 n).2.1 (setParams 2 n).2.2 crs = .ok gk)
    (party : ℕ) (hparty : party < n) (secret : ZMod Regev.P) (shares : ℕ → ZMod Regev.P) :
    Nat.card {x : ProgramBits gk // ¬ ∃ gk' inp, mainInputs Regev.delta gk party (coinsOf secret shares x) =
      .ok (gk', inp, false)} * 2 ^ 35 ≤ Nat.card (ProgramBits gk) ∧
    (33 ≤ n → Nat.card {x : ProgramBits gk // ¬ ∃ gk' inp, mainInputs Regev.delta gk party (coinsOf secret shares x) =
      .ok (gk', inp, false)} * 2 ^ 100 ≤ Nat.card (ProgramBits gk)) := by
  have hst := new_standard hnew
  have henn := hst.enn
  have hk := standard_kay hst h5 hn
  have hnP : ((n : ℕ) : ℤ) < Regev.P := by
    have : (2 : ℤ) ^ 30 < (Regev.P : ℕ) := by unfold Regev.P; norm_num
    omega
  have hpar := (C35_setParams n (by omega) hn).2.2.2
  have hle : Nat.card {x : ProgramBits gk // ¬ ∃ gk' inp, mainInputs Regev.delta gk party (coinsOf secret shares x) =
      .ok (gk', inp, false)} ≤ Nat.card {x : ProgramBits gk // ¬ CoinsOk gk (coinsOf secret shares x)} := by
    refine card_imp fun x hx hc => hx ?_
    obtain ⟨⟨gk', inp, wr⟩, hin⟩ := (C66_inputs_defined Regev.delta _ _ _ _ crs gk hnew hnP (by omega) party (by omega)
      (coinsOf secret shares x)).1 hc
    have hw := C66_no_error _ _ _ _ hpar crs gk hnew party _ gk' inp wr hin
    rw [hw] at hin
    exact ⟨gk', inp, hin⟩
  generalize Nat.card {x : ProgramBits gk // ¬ ∃ gk' inp, mainInputs Regev.delta gk party (coinsOf secret shares x) =
      .ok (gk', inp, false)} = B at hle ⊢
  constructor
  · have := coins_bad hk (by omega) (by omega) 38 (by norm_num)
      (pow_parties (m := 5) (by norm_num) (by omega) (by norm_num)) secret shares
    exact num_38 hle this
  · intro h33
    have := coins_bad hk (by omega) (by omega) 103 (by norm_num)
      (pow_parties (m := 33) (by norm_num) (by omega) (by norm_num)) secret shares
    exact num_103 hle this

/-- **C90, run.** A run of the driver program with its own parameters, 33 or more parties and dimensions that are multiples
of 4: for all but a fraction `2^-100` of the random bits of the keys and ciphertexts, everything up to the proofs succeeds,
without a decryption error, and for all but a fraction `6·2^-121` of the bytes of the challenge matrices so do all the proof
functions before the smallness proof. -/
theorem C90_run {G : Type} [AddCommGroup G] [Module (ZMod Regev.P) G] {E : Env (ZMod Regev.P) G} (hE : LengthOk E)
    (getG getH : ℕ → G) (ntlKernel : List (List (ZMod Regev.P)) → List (List (ZMod Regev.P)))
    (hker : ∀ G nr nc, G.length = nr → (∀ r ∈ G, r.length = nc) → LeftKernelBasis (ntlKernel G) G nr nc)
    (bounds : GlobalKey Regev.P 2 → List (List (ZMod Regev.P)) → Res (Params Regev.P))
    (n : ℕ) (h33 : 33 ≤ n) (hn : n < 2 ^ 30) (hb : Precise bounds n) (h4 : 4 ∣ (setParams 2 n).1 ∧ 4 ∣ n)
    (crs : ℕ → ℕ → Elt (ZMod Regev.P) 2) (party : ℕ) (hparty : party < n) (secret : ZMod Regev.P)
    (shares : ℕ → ZMod Regev.P) (mer : E.St) (rnd0 fresh : Blocks (ZMod Regev.P)) (r : ZMod Regev.P)
    {tests : ℕ → Tests} (hT : ∀ k, NoFalsePrimes (tests k).probPrime) :
    ∃ gk0, GlobalKey.new (setParams 2 n).1 n (setParams 2 n).2.1 (setParams 2 n).2.2 crs = .ok gk0 ∧
      Nat.card {x : ProgramBits gk0 // ¬ ∃ sp gk inp P vd0 vd pd,
        SharingParams.make ntlKernel (interval 1 ((gk0.enn : ℤ) + 1)) gk0.tee = .ok sp ∧
        mainInputs Regev.delta gk0 party (coinsOf secret shares x) = .ok (gk, inp, false) ∧ bounds gk sp.H = .ok P ∧
        newVerifierData getG getH P mer = .ok vd0 ∧
        commitKey E inp.sk1 r vd0 (newProverData rnd0) = .ok (vd, pd) ∧
        Nat.card {y : RoundBytes P.gk // ¬ ∃ r, recordRound (answeringRound E y) P fresh tests inp vd pd = .ok r} * 2 ^ 121 ≤
          6 * Nat.card (RoundBytes P.gk)} * 2 ^ 100 ≤ Nat.card (ProgramBits gk0) := by
  obtain ⟨gk0, hnew, hst0, hs0, ht⟩ := standard_exists n (by omega) hn crs
  refine ⟨gk0, hnew, ?_⟩
  have henn := hst0.enn
  have hb2 := coins_bad (standard_kay hst0 (by omega) hn) (by omega) (by omega) 103 (by norm_num)
    (pow_parties (m := 33) (by norm_num) (by omega) (by norm_num)) secret shares
  refine num_103 (card_imp (p' := fun x : ProgramBits gk0 =>
    ¬ CoinsOk gk0 (coinsOf secret shares x)) fun x hx hc => hx ?_) hb2
  obtain ⟨gk1, sp, gk, inp, P, vd0, vd, pd, a0, a1, a2, a3, a4, a5, a6⟩ := C89_program hE getG getH ntlKernel hker bounds n h33
    hn hb h4 crs party hparty (coinsOf secret shares x) (fun g hg => by
      rw [hnew] at hg
      obtain rfl := Res.ok.inj hg
      exact hc) mer rnd0 fresh r hT
  rw [hnew] at a0
  obtain rfl := Res.ok.inj a0
  exact ⟨sp, gk, inp, P, vd0, vd, pd, a1, a2, a3, a4, a5, a6⟩

/-! ### Concrete cases -/

/-- 256 parties: parameters as required, and `e = 183` in `C90_encrypt`. -/
example : (∃ gk : GlobalKey Regev.P 2, GlobalKey.new (setParams 2 256).1 256 (setParams 2 256).2.1 (setParams 2 256).2.2
      (fun i j => ⟨![(i : ZMod Regev.P), (j : ZMod Regev.P)]⟩) = .ok gk ∧ Shaped gk ∧ 2048 ≤ gk.kay ∧ gk.enn = 256) ∧
    8 ^ 25 * 2 ^ 183 ≤ (5 * 256) ^ 25 := by
  constructor
  · obtain ⟨gk0, hnew, hst0, -, -⟩ := standard_exists 256 (by norm_num) (by norm_num)
      (fun i j => ⟨![(i : ZMod Regev.P), (j : ZMod Regev.P)]⟩)
    obtain ⟨hs, -⟩ := new_shaped _ _ _ _ _ _ hnew
    exact ⟨gk0, hnew, hs, standard_kay hst0 (by norm_num) (by norm_num), hst0.enn⟩
  · norm_num

end Verif.Props
