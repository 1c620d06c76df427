/-
C78: the command line, and for which numbers of parties the program can finish.
-/
import Verif.Spec.Arguments
import Verif.Props.RunExists
import Mathlib.Data.List.TakeWhile

namespace Verif.Props
open Verif Verif.Spec Regev

theorem isSpace_iff (b : UInt8) : isSpace b = true ↔ White b := by
  unfold isSpace White
  simp only [Bool.or_eq_true, beq_iff_eq, Bool.and_eq_true, decide_eq_true_eq, UInt8.le_iff_toNat_le, ← UInt8.toNat_inj]
  rfl

theorem isDigit_iff (b : UInt8) : isDigit b = true ↔ Digit b := by
  unfold isDigit Digit
  simp only [Bool.and_eq_true, decide_eq_true_eq, UInt8.le_iff_toNat_le]
  rfl

theorem digitsVal_eq (ds : Bytes) : digitsVal ds = decimal ds := by
  unfold digitsVal decimal
  induction ds using List.reverseRecOn with
  | nil => rfl
  | append_singleton ds b ih =>
    rw [List.foldl_append, List.foldl_cons, List.foldl_nil, ih, List.reverse_append, List.reverse_singleton,
      List.singleton_append, List.map_cons, Nat.ofDigits_cons]
    push_cast
    omega

theorem dropWhile_pre {p : UInt8 → Bool} (ws t : Bytes) (h : ∀ b ∈ ws, p b = true) (ht : ∀ b u, t = b :: u → p b = false) :
    (ws ++ t).dropWhile p = t := by
  induction ws with
  | nil =>
    cases t with
    | nil => rfl
    | cons b u => rw [List.nil_append, List.dropWhile_cons, if_neg (by rw [ht b u rfl]; exact Bool.false_ne_true)]
  | cons b ws ih =>
    rw [List.cons_append, List.dropWhile_cons, if_pos (h b List.mem_cons_self)]
    exact ih fun c hc => h c (List.mem_cons_of_mem _ hc)

theorem takeWhile_pre {p : UInt8 → Bool} (ds t : Bytes) (h : ∀ b ∈ ds, p b = true) (ht : ∀ b u, t = b :: u → p b = false) :
    (ds ++ t).takeWhile p = ds := by
  induction ds with
  | nil =>
    cases t with
    | nil => rfl
    | cons b u => rw [List.nil_append, List.takeWhile_cons, if_neg (by rw [ht b u rfl]; exact Bool.false_ne_true)]
  | cons b ds ih =>
    rw [List.cons_append, List.takeWhile_cons, if_pos (h b List.mem_cons_self)]
    rw [ih fun c hc => h c (List.mem_cons_of_mem _ hc)]

theorem takeSign_digit {b : UInt8} (hb : Digit b) (t : Bytes) : takeSign (b :: t) = (false, b :: t) := by
  unfold takeSign
  split
  · rename_i h
    obtain ⟨rfl, -⟩ := List.cons.inj h
    exact absurd hb (by unfold Digit; decide)
  · rename_i h
    obtain ⟨rfl, -⟩ := List.cons.inj h
    exact absurd hb (by unfold Digit; decide)
  · rfl

/-- What `stoi` looks at, for a text that begins with a number. -/
theorem stoi_of {s : Bytes} {v : ℤ} (h : StartsWith s v) :
    stoi s = if v < -2 ^ 31 ∨ v ≥ 2 ^ 31 then .throw else .ok v := by
  obtain ⟨ws, sg, ds, rest, rfl, hw, h0, hd, hr, hv⟩ := h
  obtain ⟨d, ds', rfl⟩ := List.exists_cons_of_ne_nil h0
  have hdig := hd d List.mem_cons_self
  have hsign : takeSign ((ws ++ sg ++ (d :: ds') ++ rest).dropWhile isSpace) =
      (decide (sg = [45]), d :: ds' ++ rest) := by
    rw [List.append_assoc, List.append_assoc, dropWhile_pre ws _ fun b hb => (isSpace_iff b).2 (hw b hb)]
    · rcases hv with ⟨rfl, -⟩ | ⟨rfl, -⟩ | ⟨rfl, -⟩
      · rw [List.nil_append, List.cons_append, takeSign_digit hdig]
        rfl
      · rfl
      · rfl
    · intro b u hb
      rw [← Bool.not_eq_true, isSpace_iff]
      rcases hv with ⟨rfl, -⟩ | ⟨rfl, -⟩ | ⟨rfl, -⟩
      · rw [List.nil_append, List.cons_append] at hb
        obtain ⟨rfl, -⟩ := List.cons.inj hb
        unfold White; unfold Digit at hdig; omega
      · obtain ⟨rfl, -⟩ := List.cons.inj hb
        unfold White; decide
      · obtain ⟨rfl, -⟩ := List.cons.inj hb
        unfold White; decide
  have htake : (d :: ds' ++ rest).takeWhile isDigit = d :: ds' :=
    takeWhile_pre _ _ (fun b hb => (isDigit_iff b).2 (hd b hb)) fun b u hb => by
      rw [← Bool.not_eq_true, isDigit_iff]; exact hr b u hb
  unfold stoi
  simp only [hsign, htake]
  rw [if_neg h0, digitsVal_eq]
  have : (if decide (sg = [45]) = true then -(decimal (d :: ds') : ℤ) else (decimal (d :: ds') : ℤ)) = v := by
    rcases hv with ⟨rfl, rfl⟩ | ⟨rfl, rfl⟩ | ⟨rfl, rfl⟩ <;> simp
  rw [this]

theorem takeSign_split (t : Bytes) : ∃ sg, t = sg ++ (takeSign t).2 ∧
    ((sg = [] ∧ (takeSign t).1 = false) ∨ (sg = [43] ∧ (takeSign t).1 = false) ∨ (sg = [45] ∧ (takeSign t).1 = true)) := by
  unfold takeSign
  split
  · exact ⟨[45], rfl, Or.inr (Or.inr ⟨rfl, rfl⟩)⟩
  · exact ⟨[43], rfl, Or.inr (Or.inl ⟨rfl, rfl⟩)⟩
  · exact ⟨[], rfl, Or.inl ⟨rfl, rfl⟩⟩

/-- Without digits there is an exception; otherwise the text begins with a number. -/
theorem stoi_or (s : Bytes) : stoi s = .throw ∨ ∃ v, StartsWith s v := by
  by_cases h0 : (takeSign (s.dropWhile isSpace)).2.takeWhile isDigit = []
  · left
    unfold stoi
    simp only
    rw [if_pos h0]
  · right
    obtain ⟨sg, e, hs⟩ := takeSign_split (s.dropWhile isSpace)
    obtain ⟨r, hr⟩ : ∃ r, r = takeSign (s.dropWhile isSpace) := ⟨_, rfl⟩
    rw [← hr] at h0 e hs
    refine ⟨if sg = [45] then -(decimal (r.2.takeWhile isDigit) : ℤ) else decimal (r.2.takeWhile isDigit),
      s.takeWhile isSpace, sg, r.2.takeWhile isDigit, r.2.dropWhile isDigit, ?_, ?_, h0, ?_, ?_, ?_⟩
    · rw [List.append_assoc, List.append_assoc, List.takeWhile_append_dropWhile, ← e, List.takeWhile_append_dropWhile]
    · intro b hb
      exact (isSpace_iff b).1 (List.mem_takeWhile_imp hb)
    · intro b hb
      exact (isDigit_iff b).1 (List.mem_takeWhile_imp hb)
    · intro b t hb
      rw [← isDigit_iff]
      have := List.head_dropWhile_not isDigit (l := r.2) (by rw [hb]; exact List.cons_ne_nil _ _)
      simp only [hb, List.head_cons] at this
      rw [this]
      exact Bool.false_ne_true
    · rcases hs with ⟨rfl, -⟩ | ⟨rfl, -⟩ | ⟨rfl, -⟩
      · exact Or.inl ⟨rfl, by simp⟩
      · exact Or.inr (Or.inl ⟨rfl, by simp⟩)
      · exact Or.inr (Or.inr ⟨rfl, by simp⟩)

/-- **C78.** The conversion of the argument gives a number iff the text begins with that number and it fits an `int`;
otherwise it throws. -/
theorem C78_stoi (s : Bytes) :
    (∀ v, stoi s = .ok v ↔ StartsWith s v ∧ -2 ^ 31 ≤ v ∧ v < 2 ^ 31) ∧
    ((¬ ∃ v, StartsWith s v ∧ -2 ^ 31 ≤ v ∧ v < 2 ^ 31) → stoi s = .throw) := by
  have h1 : ∀ v, stoi s = .ok v ↔ StartsWith s v ∧ -2 ^ 31 ≤ v ∧ v < 2 ^ 31 := by
    intro v
    constructor
    · intro h
      rcases stoi_or s with h' | ⟨w, hw⟩
      · rw [h'] at h; cases h
      · have := stoi_of hw
        rw [h] at this
        by_cases hc : w < -2 ^ 31 ∨ w ≥ 2 ^ 31
        · rw [if_pos hc] at this; cases this
        · rw [if_neg hc] at this
          obtain rfl := Res.ok.inj this
          exact ⟨hw, by omega, by omega⟩
    · rintro ⟨h, a, b⟩
      rw [stoi_of h, if_neg (by omega)]
  refine ⟨h1, fun hn => ?_⟩
  rcases stoi_or s with h' | ⟨w, hw⟩
  · exact h'
  · rw [stoi_of hw, if_pos]
    by_contra hc
    exact hn ⟨w, hw, by omega, by omega⟩

/-- **C78.** The number of parties: the number that the first argument begins with if it is from 32 to 4096, 512 if it is
another `int` or if there is no argument, and an exception otherwise.  So it is always from 32 to 4096. -/
theorem C78_parties (arg : Option Bytes) :
    (arg = none → nParties arg = .ok 512) ∧
    (∀ s v, arg = some s → StartsWith s v → 32 ≤ v → v ≤ 4096 → nParties arg = .ok v.toNat) ∧
    (∀ s v, arg = some s → StartsWith s v → -2 ^ 31 ≤ v → v < 2 ^ 31 → ¬ (32 ≤ v ∧ v ≤ 4096) → nParties arg = .ok 512) ∧
    (∀ s, arg = some s → (¬ ∃ v, StartsWith s v ∧ -2 ^ 31 ≤ v ∧ v < 2 ^ 31) → nParties arg = .throw) ∧
    (∀ n, nParties arg = .ok n → 32 ≤ n ∧ n ≤ 4096) := by
  refine ⟨?_, ?_, ?_, ?_, ?_⟩
  · rintro rfl
    rfl
  · rintro s v rfl h h1 h2
    unfold nParties
    dsimp only
    rw [((C78_stoi s).1 v).2 ⟨h, by omega, by omega⟩, Res.ok_bind, if_neg (by omega)]
  · rintro s v rfl h h1 h2 h3
    unfold nParties
    dsimp only
    rw [((C78_stoi s).1 v).2 ⟨h, by omega, by omega⟩, Res.ok_bind, if_pos (by omega)]
    rfl
  · rintro s rfl h
    unfold nParties
    dsimp only
    rw [(C78_stoi s).2 h, Res.throw_bind]
  · intro n h
    unfold nParties at h
    obtain ⟨m, -, h⟩ := Res.bind_eq_ok.1 h
    obtain rfl := Res.ok.inj h
    split_ifs with hc
    · decide
    · omega

example : StartsWith [32, 43, 50, 53, 54, 97] 256 :=
  ⟨[32], [43], [50, 53, 54], [97], rfl, by unfold White; decide, by decide, by unfold Digit; decide,
    by rintro b t ⟨rfl, -⟩; unfold Digit; decide, Or.inr (Or.inl ⟨rfl, by decide⟩)⟩

/-! ### The dimension -/

/-- What `setParams` rounds up. -/
noncomputable def levels (n : ℕ) : ℝ := Real.logb 2 ((n * 2 : ℕ) : ℝ) + Real.log (((n * 2 - 1) / 2 : ℕ) : ℝ) / 2

theorem levels_gt {n m : ℕ} (hm : 2 ≤ m) (h : m ≤ n) (a b a' b' : ℕ) (hb : 0 < b) (hb' : 0 < b')
    (h1 : 2 ^ a ≤ (m * 2) ^ b) (h2 : 2 ^ a' ≤ (m - 1) ^ b') {c : ℕ}
    (hc : 2 * c * b * b' * 10 ^ 10 < 2 * a * b' * 10 ^ 10 + a' * b * 6931471803) : (c : ℝ) < levels n := by
  have g := Real.log_two_gt_d9
  have gp : (0 : ℝ) < Real.log 2 := by linarith
  have e1 : (a : ℝ) * Real.log 2 ≤ b * Real.log ((n * 2 : ℕ) : ℝ) := by
    rw [← Real.log_pow, ← Real.log_pow]
    refine Real.log_le_log (by positivity) ?_
    exact_mod_cast h1.trans (Nat.pow_le_pow_left (by omega) b)
  have e2 : (a' : ℝ) * Real.log 2 ≤ b' * Real.log (((n * 2 - 1) / 2 : ℕ) : ℝ) := by
    rw [← Real.log_pow, ← Real.log_pow]
    refine Real.log_le_log (by positivity) ?_
    exact_mod_cast h2.trans (Nat.pow_le_pow_left (by omega) b')
  have rb : (0 : ℝ) < b := by exact_mod_cast hb
  have rb' : (0 : ℝ) < b' := by exact_mod_cast hb'
  have f1 : (a : ℝ) / b ≤ Real.logb 2 ((n * 2 : ℕ) : ℝ) := by
    rw [Real.logb, div_le_div_iff₀ rb gp]; linarith
  have f2 : (a' : ℝ) / b' * 0.6931471803 ≤ Real.log (((n * 2 - 1) / 2 : ℕ) : ℝ) := by
    have : (a' : ℝ) / b' * Real.log 2 ≤ Real.log (((n * 2 - 1) / 2 : ℕ) : ℝ) := by
      rw [div_mul_eq_mul_div, div_le_iff₀ rb']; linarith
    have h0 : (0 : ℝ) ≤ (a' : ℝ) / b' := by positivity
    nlinarith
  have f3 : (c : ℝ) < (a : ℝ) / b + (a' : ℝ) / b' * 0.6931471803 / 2 := by
    have hc' : (2 * c * b * b' * 10 ^ 10 : ℝ) < 2 * a * b' * 10 ^ 10 + a' * b * 6931471803 := by exact_mod_cast hc
    have : (a : ℝ) / b + (a' : ℝ) / b' * 0.6931471803 / 2 =
        (2 * a * b' * 10 ^ 10 + a' * b * 6931471803) / (2 * b * b' * 10 ^ 10) := by
      field_simp
      ring
    rw [this, lt_div_iff₀ (by positivity)]
    linarith
  unfold levels
  linarith

theorem levels_le {n m : ℕ} (hn : 2 ≤ n) (h : n ≤ m) (a b a' b' : ℕ) (hb : 0 < b) (hb' : 0 < b')
    (h1 : (m * 2) ^ b ≤ 2 ^ a) (h2 : (m - 1) ^ b' ≤ 2 ^ a') {c : ℕ}
    (hc : 2 * a * b' * 10 ^ 10 + a' * b * 6931471808 ≤ 2 * c * b * b' * 10 ^ 10) : levels n ≤ c := by
  have g := Real.log_two_lt_d9
  have g0 := Real.log_two_gt_d9
  have gp : (0 : ℝ) < Real.log 2 := by linarith
  have p1 : (0 : ℝ) < ((n * 2 : ℕ) : ℝ) := by exact_mod_cast (by omega : 0 < n * 2)
  have p2 : (0 : ℝ) < (((n * 2 - 1) / 2 : ℕ) : ℝ) := by exact_mod_cast (by omega : 0 < (n * 2 - 1) / 2)
  have e1 : b * Real.log ((n * 2 : ℕ) : ℝ) ≤ (a : ℝ) * Real.log 2 := by
    rw [← Real.log_pow, ← Real.log_pow]
    refine Real.log_le_log (by positivity) ?_
    exact_mod_cast (Nat.pow_le_pow_left (by omega) b).trans h1
  have e2 : b' * Real.log (((n * 2 - 1) / 2 : ℕ) : ℝ) ≤ (a' : ℝ) * Real.log 2 := by
    rw [← Real.log_pow, ← Real.log_pow]
    refine Real.log_le_log (by positivity) ?_
    exact_mod_cast (Nat.pow_le_pow_left (by omega) b').trans h2
  have rb : (0 : ℝ) < b := by exact_mod_cast hb
  have rb' : (0 : ℝ) < b' := by exact_mod_cast hb'
  have f1 : Real.logb 2 ((n * 2 : ℕ) : ℝ) ≤ (a : ℝ) / b := by
    rw [Real.logb, div_le_div_iff₀ gp rb]; linarith
  have f2 : Real.log (((n * 2 - 1) / 2 : ℕ) : ℝ) ≤ (a' : ℝ) / b' * 0.6931471808 := by
    have : Real.log (((n * 2 - 1) / 2 : ℕ) : ℝ) ≤ (a' : ℝ) / b' * Real.log 2 := by
      rw [div_mul_eq_mul_div, le_div_iff₀ rb']; linarith
    have h0 : (0 : ℝ) ≤ (a' : ℝ) / b' := by positivity
    nlinarith
  have f3 : (a : ℝ) / b + (a' : ℝ) / b' * 0.6931471808 / 2 ≤ c := by
    have hc' : (2 * a * b' * 10 ^ 10 + a' * b * 6931471808 : ℝ) ≤ 2 * c * b * b' * 10 ^ 10 := by exact_mod_cast hc
    have : (a : ℝ) / b + (a' : ℝ) / b' * 0.6931471808 / 2 =
        (2 * a * b' * 10 ^ 10 + a' * b * 6931471808) / (2 * b * b' * 10 ^ 10) := by
      field_simp
      ring
    rw [this, div_le_iff₀ (by positivity)]
    linarith
  unfold levels
  linarith

/-- **C78.** The LWE dimension that `setParams` chooses is a multiple of 4 exactly for these numbers of parties. -/
theorem C78_dimension (n : ℕ) (h1 : 32 ≤ n) (h2 : n ≤ 4096) :
    4 ∣ (setParams 2 n).1 ↔ (37 ≤ n ∧ n ≤ 61) ∨ (173 ≤ n ∧ n ≤ 288) ∨ (806 ≤ n ∧ n ≤ 1348) := by
  obtain ⟨L, K, G, X, hp, hL, hK, -, -, -, -, -, -, -, -, -⟩ := setParams_facts n (by omega) (by omega)
  rw [hp]
  dsimp only
  rw [hK, kOf_int]
  have hL' : L = ⌈levels n⌉ := hL
  have lo : ∀ {c : ℕ}, (c : ℝ) < levels n → (c : ℤ) < L := by
    intro c h
    rw [hL', Int.lt_ceil]
    exact_mod_cast h
  have hi : ∀ {c : ℕ}, levels n ≤ c → L ≤ (c : ℤ) := by
    intro c h
    rw [hL', Int.ceil_le]
    exact_mod_cast h
  have a32 : (7 : ℕ) < L := lo (levels_gt (m := 32) (by decide +kernel) h1 6 1 34 7 (by decide +kernel) (by decide +kernel)
    (by decide +kernel) (by decide +kernel) (by decide +kernel))
  have a4096 : L ≤ (18 : ℕ) := hi (levels_le (m := 4096) (by omega) h2 13 1 12 1 (by decide +kernel) (by decide +kernel)
    (by decide +kernel) (by decide +kernel) (by decide +kernel))
  have b36 : n ≤ 36 → L ≤ (8 : ℕ) := fun h => hi (levels_le (m := 36) (by omega) h 31 5 31 6 (by decide +kernel) (by decide +kernel)
    (by decide +kernel) (by decide +kernel) (by decide +kernel))
  have a37 : 37 ≤ n → (8 : ℕ) < L := fun h => lo (levels_gt (m := 37) (by decide +kernel) h 149 24 274 53 (by decide +kernel)
    (by decide +kernel) (by decide +kernel) (by decide +kernel) (by decide +kernel))
  have b61 : n ≤ 61 → L ≤ (9 : ℕ) := fun h => hi (levels_le (m := 61) (by omega) h 104 15 65 11 (by decide +kernel) (by decide +kernel)
    (by decide +kernel) (by decide +kernel) (by decide +kernel))
  have a62 : 62 ≤ n → (9 : ℕ) < L := fun h => lo (levels_gt (m := 62) (by decide +kernel) h 139 20 83 14 (by decide +kernel)
    (by decide +kernel) (by decide +kernel) (by decide +kernel) (by decide +kernel))
  have b172 : n ≤ 172 → L ≤ (11 : ℕ) := fun h => hi (levels_le (m := 172) (by omega) h 573 68 230 31 (by decide +kernel)
    (by decide +kernel) (by decide +kernel) (by decide +kernel) (by decide +kernel))
  have a173 : 173 ≤ n → (11 : ℕ) < L := fun h => lo (levels_gt (m := 173) (by decide +kernel) h 253 30 193 26 (by decide +kernel)
    (by decide +kernel) (by decide +kernel) (by decide +kernel) (by decide +kernel))
  have b288 : n ≤ 288 → L ≤ (12 : ℕ) := fun h => hi (levels_le (m := 288) (by omega) h 431 47 792 97 (by decide +kernel)
    (by decide +kernel) (by decide +kernel) (by decide +kernel) (by decide +kernel))
  have a289 : 289 ≤ n → (12 : ℕ) < L := fun h => lo (levels_gt (m := 289) (by decide +kernel) h 211 23 49 6 (by decide +kernel)
    (by decide +kernel) (by decide +kernel) (by decide +kernel) (by decide +kernel))
  have b805 : n ≤ 805 → L ≤ (14 : ℕ) := fun h => hi (levels_le (m := 805) (by omega) h 277 26 222 23 (by decide +kernel)
    (by decide +kernel) (by decide +kernel) (by decide +kernel) (by decide +kernel))
  have a806 : 806 ≤ n → (14 : ℕ) < L := fun h => lo (levels_gt (m := 806) (by decide +kernel) h 2653 249 2558 265 (by decide +kernel)
    (by decide +kernel) (by decide +kernel) (by decide +kernel) (by decide +kernel))
  have b1348 : n ≤ 1348 → L ≤ (15 : ℕ) := fun h => hi (levels_le (m := 1348) (by omega) h 718 63 499 48 (by decide +kernel)
    (by decide +kernel) (by decide +kernel) (by decide +kernel) (by decide +kernel))
  have a1349 : 1349 ≤ n → (15 : ℕ) < L := fun h => lo (levels_gt (m := 1349) (by decide +kernel) h 832 73 551 53 (by decide +kernel)
    (by decide +kernel) (by decide +kernel) (by decide +kernel) (by decide +kernel))
  have hr : 8 ≤ L ∧ L ≤ 18 := ⟨by omega, by omega⟩
  have key : 4 ∣ ((75 * (254 - (109 - L)) + 1) / 2 + 1) / 2 ↔ L = 9 ∨ L = 12 ∨ L = 15 := by
    obtain ⟨r1, r2⟩ := hr
    interval_cases L <;> decide
  rw [key]
  push_cast at *
  omega

/-- A run can get through exactly for the good numbers of parties. -/
theorem good_iff (n : ℕ) (h1 : 32 ≤ n) (h2 : n ≤ 4096) : (4 ∣ (setParams 2 n).1 ∧ 4 ∣ n) ↔ Good n := by
  rw [C78_dimension n h1 h2]
  unfold Good
  tauto

section
variable {G : Type} [AddCommGroup G] [Module (ZMod Regev.P) G]

/-- **C78.** Whatever the command line, the coins and the transcript: the program gets to the end of its proof functions
only if there is an argument that begins with a good number of parties, and then the only other outcome is an exception.
In particular it never gets there without an argument. -/
theorem C78_outcomes {E : Env (ZMod Regev.P) G} (hE : LengthOk E) (getG getH : ℕ → G)
    (ntlKernel : List (List (ZMod Regev.P)) → List (List (ZMod Regev.P)))
    (hker : ∀ G nr nc, G.length = nr → (∀ r ∈ G, r.length = nc) → GeneratesLeftKernel (ntlKernel G) G nr nc)
    (bounds : GlobalKey Regev.P 2 → List (List (ZMod Regev.P)) → Res (Params Regev.P))
    (hb : ∀ n, 32 ≤ n → n ≤ 4096 → Precise bounds n) (arg : Option Bytes)
    (crs : ℕ → ℕ → ℕ → Elt (ZMod Regev.P) 2) (C : MainCoins Regev.P) (mer : E.St)
    (rnd0 fresh : Blocks (ZMod Regev.P)) (r : ZMod Regev.P) {tests : ℕ → Tests}
    (hT : ∀ k, NoFalsePrimes (tests k).probPrime) (small : ℕ → SmallRnd Regev.P) :
    (∀ x, program E getG getH ntlKernel bounds arg crs C mer rnd0 fresh r tests small = .ok x →
      ∃ s v, arg = some s ∧ StartsWith s v ∧ 0 ≤ v ∧ Good v.toNat) ∧
    (∀ s v, arg = some s → StartsWith s v → 0 ≤ v → Good v.toNat →
      (∃ x, program E getG getH ntlKernel bounds arg crs C mer rnd0 fresh r tests small = .ok x) ∨
      program E getG getH ntlKernel bounds arg crs C mer rnd0 fresh r tests small = .throw) := by
  obtain ⟨p0, p1, p2, p3, p4⟩ := C78_parties arg
  have hout : ∀ n, nParties arg = .ok n →
      (Good n → (∃ x, program E getG getH ntlKernel bounds arg crs C mer rnd0 fresh r tests small = .ok x) ∨
        program E getG getH ntlKernel bounds arg crs C mer rnd0 fresh r tests small = .throw) ∧
      (¬ Good n → program E getG getH ntlKernel bounds arg crs C mer rnd0 fresh r tests small = .throw ∨
        program E getG getH ntlKernel bounds arg crs C mer rnd0 fresh r tests small = .ub) := by
    intro n hn
    obtain ⟨h1, h2⟩ := p4 n hn
    obtain ⟨o1, o2⟩ := C66_outcomes hE getG getH ntlKernel hker bounds n (by omega) (by omega) (hb n h1 h2) (crs n) 1
      (by omega) C mer rnd0 fresh r hT small _ rfl
    have e : program E getG getH ntlKernel bounds arg crs C mer rnd0 fresh r tests small =
        mainProve E getG getH ntlKernel bounds Regev.delta (setParams 2 n).1 n (setParams 2 n).2.1 (setParams 2 n).2.2
          (crs n) 1 C mer rnd0 fresh r tests small := by
      unfold program
      rw [hn, Res.ok_bind]
    rw [e]
    rw [good_iff n h1 h2] at o1 o2
    exact ⟨o1, o2⟩
  have hbad : ¬ Good 512 := by unfold Good; omega
  constructor
  · intro x hx
    obtain ⟨n, hn, -⟩ : ∃ n, nParties arg = .ok n ∧ True := by
      unfold program at hx
      obtain ⟨n, hn, -⟩ := Res.bind_eq_ok.1 hx
      exact ⟨n, hn, trivial⟩
    have hg : Good n := by
      by_contra hng
      rcases (hout n hn).2 hng with h | h <;> rw [h] at hx <;> cases hx
    cases arg with
    | none =>
      rw [p0 rfl] at hn
      obtain rfl := Res.ok.inj hn
      exact absurd hg hbad
    | some s =>
      by_cases hs : ∃ v, StartsWith s v ∧ -2 ^ 31 ≤ v ∧ v < 2 ^ 31
      · obtain ⟨v, hv, v1, v2⟩ := hs
        by_cases hr : 32 ≤ v ∧ v ≤ 4096
        · rw [p1 s v rfl hv hr.1 hr.2] at hn
          obtain rfl := Res.ok.inj hn
          exact ⟨s, v, rfl, hv, by omega, hg⟩
        · rw [p2 s v rfl hv v1 v2 hr] at hn
          obtain rfl := Res.ok.inj hn
          exact absurd hg hbad
      · rw [p3 s rfl hs] at hn
        cases hn
  · intro s v hs hv v0 hg
    have hr : 32 ≤ v ∧ v ≤ 4096 := by
      unfold Good at hg
      omega
    exact (hout _ (p1 s v hs hv hr.1 hr.2)).1 hg

/-- **C78, runs exist.** For every argument that begins with a good number there are coins with which the program gets
to the end of its proof functions, for any CRS and generators, any precise enough norm bounds, and a transcript whose
challenges are all zero. -/
theorem C78_run {E : Env (ZMod Regev.P) G} (hz : ∀ st l n, (E.challenge st l n).1 = List.replicate n 0)
    (getG getH : ℕ → G) (ntlKernel : List (List (ZMod Regev.P)) → List (List (ZMod Regev.P)))
    (hker : ∀ G nr nc, G.length = nr → (∀ r ∈ G, r.length = nc) → LeftKernelBasis (ntlKernel G) G nr nc)
    (bounds : GlobalKey Regev.P 2 → List (List (ZMod Regev.P)) → Res (Params Regev.P))
    (hb : ∀ n, 32 ≤ n → n ≤ 4096 → Precise bounds n) {s : Bytes} {v : ℤ} (hv : StartsWith s v) (h0 : 0 ≤ v)
    (hg : Good v.toNat) (crs : ℕ → ℕ → ℕ → Elt (ZMod Regev.P) 2) (mer : E.St) (rnd0 fresh : Blocks (ZMod Regev.P))
    (r : ZMod Regev.P) {tests : ℕ → Tests} (hT : ∀ k, NoFalsePrimes (tests k).probPrime) :
    ∃ C small x, program E getG getH ntlKernel bounds (some s) crs C mer rnd0 fresh r tests small = .ok x := by
  have hr : 32 ≤ v ∧ v ≤ 4096 := by
    unfold Good at hg
    omega
  have h1 : 32 ≤ v.toNat := by omega
  have h2 : v.toNat ≤ 4096 := by omega
  obtain ⟨C, small, P, vd, pd, h⟩ := C66_run_exists hz getG getH ntlKernel hker bounds v.toNat (by omega) (by omega)
    (hb _ h1 h2) ((good_iff _ h1 h2).2 hg) (crs v.toNat) mer rnd0 fresh r hT
  refine ⟨C, small, (false, P, vd, pd), ?_⟩
  · unfold program
    rw [(C78_parties (some s)).2.1 s v rfl hv hr.1 hr.2, Res.ok_bind]
    exact h

end

/-- The hypotheses of `C78_outcomes` and `C78_run` about the kernel routine and the norm bounds can be met, and there
is a good argument. -/
example : (∃ k : List (List (ZMod Regev.P)) → List (List (ZMod Regev.P)), ∀ G nr nc, G.length = nr →
      (∀ r ∈ G, r.length = nc) → LeftKernelBasis (k G) G nr nc) ∧
    (∀ n, 32 ≤ n → n ≤ 4096 → Precise (verifierBounds Regev.delta) n) ∧ StartsWith [50, 53, 54] 256 ∧ Good 256 := by
  refine ⟨kernel_exists _, ?_, ⟨[], [], [50, 53, 54], [], rfl, by simp, by decide, by unfold Digit; decide,
    by rintro b t ⟨⟩, Or.inl ⟨rfl, by decide⟩⟩, by unfold Good; omega⟩
  intro n h1 h2 gk H hs
  obtain ⟨P, b, m, h1, h2, h3, h4, h5⟩ := C67_model Regev.delta gk H hs (by omega) (by omega)
  exact ⟨P, h1, h2, h3, h4, b, m, h5⟩

end Verif.Props
