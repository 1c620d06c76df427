/-
C71: what a decryption proof says about the plaintext.
-/
import Verif.Props.Program
import Verif.Props.RegevProofs
import Verif.Props.Round

namespace Verif.Props
open Spec Regev
open scoped BigOperators

/-! ### The noise that the recorded bound lets through -/

/-- The coefficients of an element. -/
theorem l1_single {q : ℕ} [Fact q.Prime] (m i : ℕ) (u : Elt (ZMod q) 2) (hi : i < m) :
    l1 ((List.range m).map fun j => if j = i then u else 0) = |(u.c 0).valMinAbs| + |(u.c 1).valMinAbs| := by
  unfold l1
  have h : ∀ l : List ℕ, ((coeffs (l.map fun j => if j = i then u else 0)).map fun s => |s.valMinAbs|).sum =
      l.count i * (|(u.c 0).valMinAbs| + |(u.c 1).valMinAbs|) := by
    intro l
    induction l with
    | nil => simp [coeffs]
    | cons a l ih =>
      have e : coeffs ((a :: l).map fun j => if j = i then u else 0) =
          List.ofFn (if a = i then u else 0).c ++ coeffs (l.map fun j => if j = i then u else 0) := rfl
      rw [e, List.map_append, List.sum_append, ih, List.map_ofFn, List.sum_ofFn, Fin.sum_univ_two]
      by_cases ha : a = i
      · rw [if_pos ha, ha, List.count_cons_self]
        simp only [Function.comp]
        push_cast
        ring
      · rw [if_neg ha, List.count_cons_of_ne ha]
        simp only [Function.comp]
        have z : ∀ c, (0 : Elt (ZMod q) 2).c c = 0 := fun _ => rfl
        rw [z, z, ZMod.valMinAbs_zero, abs_zero]
        ring
  rw [h, List.count_eq_one_of_mem List.nodup_range (List.mem_range.2 hi)]
  simp

/-- The recorded bound on the high digits is at least the bound on the noise, over the radix. -/
theorem noise_room {P : Params Regev.P} (hP : ParamsOk P) (hB : 2 ^ 129 + 16 ≤ P.B_dNoise) (hk : 41 ≤ P.gk.kay) :
    8 * (2 * (2 ^ 125 + 1) + P.radix) ≤ P.radix * normBound P 0 := by
  have hr := hP.radix
  show _ ≤ P.radix * hiBound P P.B_dNoise (P.gk.kay * 2)
  unfold hiBound
  have h1 := Int.mul_fdiv_add_fmod P.B_dNoise P.radix
  have h2 := Int.fmod_lt_of_pos P.B_dNoise (show 0 < P.radix by omega)
  have h3 : (9 : ℤ) ≤ ceilSqrt (P.gk.kay * 2) := by
    have : 9 ≤ Nat.sqrt (P.gk.kay * 2) := Nat.le_sqrt.2 (by omega)
    unfold ceilSqrt
    by_cases hs : Nat.sqrt (P.gk.kay * 2) * Nat.sqrt (P.gk.kay * 2) = P.gk.kay * 2
    · rw [if_pos hs]
      omega
    · rw [if_neg hs]
      omega
  have h4 : P.radix * 9 ≤ P.radix * (ceilSqrt (P.gk.kay * 2) : ℤ) := mul_le_mul_of_nonneg_left h3 (by omega)
  rw [mul_add P.radix]
  omega

/-! ### Uniqueness below the decoding bound -/

theorem ext2 {F : Type} {a b : Elt F 2} (h0 : a.c 0 = b.c 0) (h1 : a.c 1 = b.c 1) : a = b := by
  cases a
  cases b
  congr 1
  funext i
  fin_cases i
  · exact h0
  · exact h1

theorem g_c0 : (g Regev.P 2 Regev.delta).c 0 = 1 := pow_zero _

theorem g_c1 : (g Regev.P 2 Regev.delta).c 1 = (Regev.delta : ZMod Regev.P) := pow_one _

/-- **C71, small noise.** If `x·g + e = x'·g + e'` and all coefficients of `e` and `e'` are below `2^125` in absolute
value, then `x = x'`: a ciphertext and a key have one plaintext. -/
theorem C71_unique (x x' : ZMod Regev.P) (e e' : Elt (ZMod Regev.P) 2)
    (h : x • g Regev.P 2 Regev.delta + e = x' • g Regev.P 2 Regev.delta + e')
    (he : ∀ c, |(e.c c).valMinAbs| < 2 ^ 125) (he' : ∀ c, |(e'.c c).valMinAbs| < 2 ^ 125) : x = x' := by
  have key : ∀ (x : ZMod Regev.P) (e : Elt (ZMod Regev.P) 2), (∀ c, |(e.c c).valMinAbs| < 2 ^ 125) →
      (decodePtxt Regev.delta (-(x • g Regev.P 2 Regev.delta + e))).1 = x := by
    intro x e he
    have hd := C33_library x (e.c 0).valMinAbs (e.c 1).valMinAbs (he 0) (he 1)
    have ez : (-(x • g Regev.P 2 Regev.delta + e) : Elt (ZMod Regev.P) 2) =
        ⟨![-(x + ((e.c 0).valMinAbs : ZMod Regev.P)),
          -(x * (Regev.delta : ZMod Regev.P) + ((e.c 1).valMinAbs : ZMod Regev.P))]⟩ := by
      rw [ZMod.coe_valMinAbs, ZMod.coe_valMinAbs]
      apply ext2
      · rw [Elt.neg_c, Elt.add_c, Elt.smul_c, g_c0, mul_one]
        rfl
      · rw [Elt.neg_c, Elt.add_c, Elt.smul_c, g_c1]
        rfl
    rw [ez, hd]
  rw [← key x e he, h, key x' e' he']

/-! ### Two plaintexts for one ciphertext -/

section
variable {G : Type} [AddCommGroup G] [Module (ZMod Regev.P) G]

/-- **C71, a decryption proof does not determine the plaintext.** The bound on the compressed noise is at least
`2^129 + 16`, which is less than 32 times the noise that decoding can correct.  Then for every key, every first part of
the ciphertexts, every two lists of plaintexts that differ by one in place `i`, there is a second part `ctVec` for which
both lists are plaintexts under this key, with noises for which the decryption proof succeeds, for all coins and
challenges, and satisfies what it records; and the library's decryption returns the second one. -/
theorem C71_ambiguous {E : Env (ZMod Regev.P) G} (hE : LengthOk E) {P : Params Regev.P} (hP : ParamsOk P)
    (hdelta : P.delta = Regev.delta) (hk : 41 ≤ P.gk.kay) (hB : 2 ^ 129 + 16 ≤ P.B_dNoise)
    {vd : VerifierData (ZMod Regev.P) G E.St} {pd : ProverData (ZMod Regev.P)} (S : Setup P vd pd)
    {ctMat : EMat Regev.P 2} (hM : HasShape ctMat P.gk.kay P.gk.tee) {sk : EVec Regev.P 2} (hsk : sk.length = P.gk.kay)
    {pt pt' : List (ZMod Regev.P)} (hpt : pt.length = P.gk.tee) (hpt' : pt'.length = P.gk.tee) {i : ℕ} (hi : i < P.gk.tee)
    (hd : ∀ j < P.gk.tee, pt'.getD j 0 = if j = i then pt.getD j 0 + 1 else pt.getD j 0) :
    ∃ ctVec : EVec Regev.P 2, ctVec.length = P.gk.tee ∧
      (∀ p, p = pt ∨ p = pt' → ∃ noise : EVec Regev.P 2, noise.length = P.gk.tee ∧
        Decrypts P.delta P.gk.kay P.gk.tee ctMat ctVec p sk noise ∧
        ∀ (fresh : Blocks (ZMod Regev.P)) (tests : ℕ → Tests), (∀ k, NoFalsePrimes (tests k).probPrime) →
          ∃ vd' pd', proveDecryption E P fresh tests vd pd ctMat ctVec p sk noise = .ok (vd', pd') ∧
            ∀ x, Agrees pd'.linWitness x → SlotSat vd'.linConstr 0 x ∧ BlockRecorded P tests vd' pd' x 0 ∧
              BlockRecorded P tests vd' pd' x 1 ∧ Reads x vd.ix.sk1 (coeffs sk) ∧ Reads x vd.ix.pt1 p) ∧
      (decodePtxt P.delta ((∑ k ∈ Finset.range P.gk.kay, sk.getD k 0 * entry ctMat k i) - ctVec.getD i 0)).1 =
        pt'.getD i 0 := by
  have hdl : Regev.delta = 2 ^ 126 := by decide
  obtain ⟨u, hu⟩ : ∃ u : Elt (ZMod Regev.P) 2, u = ⟨![0, ((2 ^ 125 : ℤ) : ZMod Regev.P)]⟩ := ⟨_, rfl⟩
  obtain ⟨u', hu'⟩ : ∃ u' : Elt (ZMod Regev.P) 2, u' = ⟨![((-1 : ℤ) : ZMod Regev.P), ((-2 ^ 125 : ℤ) : ZMod Regev.P)]⟩ :=
    ⟨_, rfl⟩
  have huu : u = g Regev.P 2 P.delta + u' := by
    rw [hu, hu', hdelta]
    apply ext2
    · rw [Elt.add_c, g_c0]
      show (0 : ZMod Regev.P) = 1 + ((-1 : ℤ) : ZMod Regev.P)
      push_cast
      ring
    · rw [Elt.add_c, g_c1, hdl]
      show ((2 ^ 125 : ℤ) : ZMod Regev.P) = ((2 ^ 126 : ℕ) : ZMod Regev.P) + ((-2 ^ 125 : ℤ) : ZMod Regev.P)
      push_cast
      ring
  have c1 : (((2 ^ 125 : ℤ) : ZMod Regev.P)).valMinAbs = 2 ^ 125 := valMinAbs_cast _ (by unfold Regev.P; norm_num)
  have c2 : (((-2 ^ 125 : ℤ) : ZMod Regev.P)).valMinAbs = -2 ^ 125 := valMinAbs_cast _ (by unfold Regev.P; norm_num)
  have c3 : (((-1 : ℤ) : ZMod Regev.P)).valMinAbs = -1 := valMinAbs_cast _ (by unfold Regev.P; norm_num)
  have l1u : |(u.c 0).valMinAbs| + |(u.c 1).valMinAbs| ≤ 2 ^ 125 + 1 := by
    rw [hu]
    show |(0 : ZMod Regev.P).valMinAbs| + |(((2 ^ 125 : ℤ) : ZMod Regev.P)).valMinAbs| ≤ _
    rw [c1, ZMod.valMinAbs_zero]
    norm_num
  have l1u' : |(u'.c 0).valMinAbs| + |(u'.c 1).valMinAbs| ≤ 2 ^ 125 + 1 := by
    rw [hu']
    show |(((-1 : ℤ) : ZMod Regev.P)).valMinAbs| + |(((-2 ^ 125 : ℤ) : ZMod Regev.P)).valMinAbs| ≤ _
    rw [c2, c3]
    norm_num
  have getN : ∀ (w : ℕ → Elt (ZMod Regev.P) 2) (j : ℕ), j < P.gk.tee → ((List.range P.gk.tee).map w).getD j 0 = w j := by
    intro w j hj
    rw [List.getD_eq_getElem?_getD, List.getElem?_map, List.getElem?_range hj]
    rfl
  obtain ⟨ct, hct⟩ : ∃ ct : ℕ → Elt (ZMod Regev.P) 2, ct = fun j =>
      (∑ k ∈ Finset.range P.gk.kay, sk.getD k 0 * entry ctMat k j) + pt.getD j 0 • g Regev.P 2 P.delta +
        (if j = i then u else 0) := ⟨_, rfl⟩
  have hctl : ((List.range P.gk.tee).map ct).length = P.gk.tee := by simp
  refine ⟨(List.range P.gk.tee).map ct, hctl, ?_, ?_⟩
  · intro p hp
    obtain ⟨w, hw1, hw2, hpl⟩ : ∃ w : Elt (ZMod Regev.P) 2, |(w.c 0).valMinAbs| + |(w.c 1).valMinAbs| ≤ 2 ^ 125 + 1 ∧
        (∀ j < P.gk.tee, pt.getD j 0 • g Regev.P 2 P.delta + (if j = i then u else 0) =
          p.getD j 0 • g Regev.P 2 P.delta + (if j = i then w else 0)) ∧ p.length = P.gk.tee := by
      rcases hp with rfl | rfl
      · exact ⟨u, l1u, fun _ _ => rfl, hpt⟩
      · refine ⟨u', l1u', fun j hj => ?_, hpt'⟩
        rw [hd j hj]
        by_cases hji : j = i
        · rw [if_pos hji, if_pos hji, if_pos hji, huu]
          apply ext2 <;> simp only [Elt.add_c, Elt.smul_c] <;> ring
        · rw [if_neg hji, if_neg hji, if_neg hji]
    obtain ⟨noise, hno⟩ : ∃ noise : EVec Regev.P 2, noise = (List.range P.gk.tee).map fun j => if j = i then w else 0 :=
      ⟨_, rfl⟩
    have hnl : noise.length = P.gk.tee := by rw [hno]; simp
    have hdec : Decrypts P.delta P.gk.kay P.gk.tee ctMat ((List.range P.gk.tee).map ct) p sk noise := by
      intro j hj
      rw [getN ct j hj, hno, getN _ j hj, hct]
      dsimp only
      rw [add_assoc, hw2 j hj, ← add_assoc]
    refine ⟨noise, hnl, hdec, fun fresh tests hT => ?_⟩
    obtain ⟨⟨vd', pd'⟩, hr⟩ := C43_decryption_small hE hP hT S hM hctl hpl hnl (skey := sk) (fresh := fresh) (by
      refine le_trans ?_ (noise_room hP hB hk)
      have : l1 noise ≤ 2 ^ 125 + 1 := by rw [hno, l1_single _ _ _ hi]; exact hw1
      omega)
    refine ⟨vd', pd', hr, fun x hx => ?_⟩
    obtain ⟨r1, r2, r3, r4, r5, -⟩ := C43_decryption hE hP hT S hM hctl hpl hsk hnl hdec hr x hx
    exact ⟨r1, r2, r3, r4, r5⟩
  · rw [getN ct i hi, hct, hd i hi, if_pos rfl, hdelta]
    have ht := C33_tight (pt.getD i 0)
    rw [← ht]
    congr 2
    apply ext2
    · simp only [if_true, Elt.sub_c, Elt.add_c, Elt.smul_c, g_c0, hu]
      show _ - (_ + _ * 1 + 0) = -_
      ring
    · simp only [if_true, Elt.sub_c, Elt.add_c, Elt.smul_c, g_c1, hu]
      show _ - (_ + _ + ((2 ^ 125 : ℤ) : ZMod Regev.P)) = -(_ + _)
      push_cast
      ring

end

/-! ### The numbers of the library -/

theorem sigma_of {n : ℕ} {L : ℤ} (h2 : 2 ≤ n) (hn : n < 2 ^ 30)
    (h1 : (L : ℝ) - 1 < Real.logb 2 ((n * 2 : ℕ) : ℝ) + Real.log (((n * 2 - 1) / 2 : ℕ) : ℝ) / 2)
    (h3 : Real.logb 2 ((n * 2 : ℕ) : ℝ) + Real.log (((n * 2 - 1) / 2 : ℕ) : ℝ) / 2 ≤ L) :
    ∃ G : ℕ, (setParams 2 n).2.2 = 109 - L + G ∧
      124080 * (2 * (setParams 2 n).1) * ((n * 2 - 1) / 2 : ℕ) ≤ ((2 : ℤ) ^ G) ^ 2 := by
  obtain ⟨L', K', G, X, hp, hL, -, -, -, -, -, hX, hG, hXG, -⟩ := setParams_facts n h2 hn
  have e : L' = L := by rw [hL, Int.ceil_eq_iff]; exact ⟨h1, h3⟩
  obtain ⟨G, rfl⟩ := Int.eq_ofNat_of_zero_le hG
  refine ⟨G, ?_, ?_⟩
  · rw [hp, e]
  · rw [hp]
    show 124080 * (2 * K') * _ ≤ _
    rw [← hX]
    simpa using hXG

theorem pow2_lt {a b : ℕ} (h : ((2 : ℤ) ^ a) ^ 2 < ((2 : ℤ) ^ b) ^ 2) : a < b := by
  by_contra hb
  have : (2 : ℤ) ^ b ≤ 2 ^ a := pow_le_pow_right₀ (by norm_num) (by omega)
  have := pow_le_pow_left₀ (by positivity) this 2
  omega

/-- The noise sizes for 256, 512 and 1024 parties. -/
theorem sigma_values {n : ℕ} (hn : n = 256 ∨ n = 512 ∨ n = 1024) :
    41 ≤ (setParams 2 n).1 ∧ (2 : ℝ) ^ 125 ≤ n * 2 ^ ((setParams 2 n).2.2.toNat + 1) := by
  have g1 := Real.log_two_gt_d9
  have g2 := Real.log_two_lt_d9
  rcases hn with rfl | rfl | rfl
  · have e : Real.logb 2 ((256 * 2 : ℕ) : ℝ) = 9 := by
      rw [show ((256 * 2 : ℕ) : ℝ) = 2 ^ 9 by norm_num, logb_pow2]; norm_num
    have a1 : Real.log (((256 * 2 - 1) / 2 : ℕ) : ℝ) ≤ ((8 : ℕ) : ℝ) * Real.log 2 := by
      rw [← Real.log_pow]
      exact Real.log_le_log (by norm_num) (by norm_num)
    have a2 : ((7 : ℕ) : ℝ) * Real.log 2 ≤ Real.log (((256 * 2 - 1) / 2 : ℕ) : ℝ) := by
      rw [← Real.log_pow]
      exact Real.log_le_log (by norm_num) (by norm_num)
    obtain ⟨G, hs, hX⟩ := sigma_of (n := 256) (L := 12) (by norm_num) (by norm_num)
      (by rw [e]; push_cast at *; linarith) (by rw [e]; push_cast at *; linarith)
    rw [C66_good_dimension.1] at hX ⊢
    have hG : 18 < G := pow2_lt (lt_of_lt_of_le (by norm_num) hX)
    refine ⟨by norm_num, ?_⟩
    have : 116 ≤ (setParams 2 256).2.2.toNat := by omega
    calc (2 : ℝ) ^ 125 = ((256 : ℕ) : ℝ) * 2 ^ (116 + 1) := by norm_num
      _ ≤ _ := mul_le_mul_of_nonneg_left (pow_le_pow_right₀ (by norm_num) (by omega)) (by positivity)
  · have e : Real.logb 2 ((512 * 2 : ℕ) : ℝ) = 10 := by
      rw [show ((512 * 2 : ℕ) : ℝ) = 2 ^ 10 by norm_num, logb_pow2]; norm_num
    have a1 : Real.log (((512 * 2 - 1) / 2 : ℕ) : ℝ) ≤ ((9 : ℕ) : ℝ) * Real.log 2 := by
      rw [← Real.log_pow]
      exact Real.log_le_log (by norm_num) (by norm_num)
    have a2 : 26 * Real.log 2 ≤ 3 * Real.log (((512 * 2 - 1) / 2 : ℕ) : ℝ) := by
      rw [show (26 : ℝ) = ((26 : ℕ) : ℝ) by norm_num, ← Real.log_pow, show (3 : ℝ) = ((3 : ℕ) : ℝ) by norm_num,
        ← Real.log_pow]
      exact Real.log_le_log (by norm_num) (by norm_num)
    obtain ⟨G, hs, hX⟩ := sigma_of (n := 512) (L := 14) (by norm_num) (by norm_num)
      (by rw [e]; push_cast at *; linarith) (by rw [e]; push_cast at *; linarith)
    rw [C66_default_dimension] at hX ⊢
    have hG : 19 < G := pow2_lt (lt_of_lt_of_le (by norm_num) hX)
    refine ⟨by norm_num, ?_⟩
    have : 115 ≤ (setParams 2 512).2.2.toNat := by omega
    calc (2 : ℝ) ^ 125 = ((512 : ℕ) : ℝ) * 2 ^ (115 + 1) := by norm_num
      _ ≤ _ := mul_le_mul_of_nonneg_left (pow_le_pow_right₀ (by norm_num) (by omega)) (by positivity)
  · have e : Real.logb 2 ((1024 * 2 : ℕ) : ℝ) = 11 := by
      rw [show ((1024 * 2 : ℕ) : ℝ) = 2 ^ 11 by norm_num, logb_pow2]; norm_num
    have a1 : Real.log (((1024 * 2 - 1) / 2 : ℕ) : ℝ) ≤ ((10 : ℕ) : ℝ) * Real.log 2 := by
      rw [← Real.log_pow]
      exact Real.log_le_log (by norm_num) (by norm_num)
    have a2 : ((9 : ℕ) : ℝ) * Real.log 2 ≤ Real.log (((1024 * 2 - 1) / 2 : ℕ) : ℝ) := by
      rw [← Real.log_pow]
      exact Real.log_le_log (by norm_num) (by norm_num)
    obtain ⟨G, hs, hX⟩ := sigma_of (n := 1024) (L := 15) (by norm_num) (by norm_num)
      (by rw [e]; push_cast at *; linarith) (by rw [e]; push_cast at *; linarith)
    rw [C66_good_dimension.2] at hX ⊢
    have hG : 19 < G := pow2_lt (lt_of_lt_of_le (by norm_num) hX)
    refine ⟨by norm_num, ?_⟩
    have : 114 ≤ (setParams 2 1024).2.2.toNat := by omega
    calc (2 : ℝ) ^ 125 = ((1024 : ℕ) : ℝ) * 2 ^ (114 + 1) := by norm_num
      _ ≤ _ := mul_le_mul_of_nonneg_left (pow_le_pow_right₀ (by norm_num) (by omega)) (by positivity)

/-- **C71, the library's numbers.** With 256, 512 or 1024 parties the hypotheses of `C71_ambiguous` about the dimension and
the bound hold. -/
theorem C71_numbers {P : Params Regev.P} {b m : ℤ} {n : ℕ} (hn : n = 256 ∨ n = 512 ∨ n = 1024) (hg : Standard P.gk n)
    (h : BoundsClose P b m) : 41 ≤ P.gk.kay ∧ 2 ^ 129 + 16 ≤ P.B_dNoise := by
  obtain ⟨h1, h2⟩ := sigma_values hn
  refine ⟨by have := hg.kay; omega, ?_⟩
  have hd := (abs_le.1 h.dNoise).1
  have hσ : P.gk.sigmaEnc2 = (setParams 2 n).2.2.toNat := by have := hg.sigma2; omega
  rw [← hσ] at h2
  have r : (18 : ℝ) ≤ √337 := Real.le_sqrt_of_sq_le (by norm_num)
  have t0 : (0 : ℝ) ≤ 24 * √(377 * (P.gk.kay * 2) * (P.gk.enn * 2)) * 2 ^ P.gk.sigmaEnc1 := by positivity
  have t1 : (1.7 * 18 : ℝ) * 2 ^ 125 ≤ 1.7 * √337 * (P.gk.enn * 2) * 2 ^ P.gk.sigmaEnc2 := by
    rw [hg.enn]
    have e : 1.7 * √337 * ((n : ℝ) * 2) * 2 ^ P.gk.sigmaEnc2 = (1.7 * √337) * (n * 2 ^ (P.gk.sigmaEnc2 + 1)) := by
      rw [pow_succ]
      ring
    rw [e]
    exact mul_le_mul (by linarith) h2 (by positivity) (by positivity)
  have : ((2 ^ 129 + 16 : ℤ) : ℝ) ≤ P.B_dNoise := by
    push_cast
    generalize 1.7 * √337 * ((P.gk.enn : ℝ) * 2) * 2 ^ P.gk.sigmaEnc2 = a at *
    generalize 24 * √(377 * ((P.gk.kay : ℝ) * 2) * (P.gk.enn * 2)) * 2 ^ P.gk.sigmaEnc1 = c at *
    norm_num at t1 ⊢
    linarith
  exact_mod_cast this

/-- **C71, the program's states.** With 256, 512 or 1024 parties, for every CRS, all generators and every transcript, the
constructors and the commitment to a secret key lead to a state that meets the hypotheses of `C71_ambiguous`. -/
theorem C71_states {G : Type} [AddCommGroup G] [Module (ZMod Regev.P) G] (E : Env (ZMod Regev.P) G) {n : ℕ}
    (hn : n = 256 ∨ n = 512 ∨ n = 1024) (crs : ℕ → ℕ → Elt (ZMod Regev.P) 2) (H : List (List (ZMod Regev.P)))
    (getG getH : ℕ → G) (mer : E.St) (rnd : Blocks (ZMod Regev.P)) (r : ZMod Regev.P) :
    ∃ (gk : GlobalKey Regev.P 2) (P : Params Regev.P),
      GlobalKey.new (setParams 2 n).1 n (setParams 2 n).2.1 (setParams 2 n).2.2 crs = .ok gk ∧
      verifierBounds Regev.delta gk H = .ok P ∧ ParamsOk P ∧ P.delta = Regev.delta ∧ 41 ≤ P.gk.kay ∧
      2 ^ 129 + 16 ≤ P.B_dNoise ∧ 1 < P.gk.tee ∧
      ∀ sk : EVec Regev.P 2, sk.length = P.gk.kay → ∃ vd vd' pd', newVerifierData getG getH P mer = .ok vd ∧
        commitKey E sk r vd (newProverData rnd) = .ok (vd', pd') ∧ Setup P vd' pd' := by
  have h5 : 5 ≤ n := by omega
  have hn30 : n < 2 ^ 30 := by omega
  obtain ⟨gk, h1, h2, h3, h4⟩ := standard_exists n h5 hn30 crs
  obtain ⟨P, b, m, p1, rfl, -, p4, p5⟩ := C67_model Regev.delta gk H h2 h5 hn30
  obtain ⟨-, -, -, hP, -⟩ := C67_bounds h2 h5 hn30 h3 h4 p5
  obtain ⟨k1, k2⟩ := C71_numbers hn h2 p5
  have htee : P.gk.tee = (n - 1) / 4 * 2 := by
    have h1' := h1
    unfold GlobalKey.new at h1'
    split_ifs at h1' with c1
    dsimp only at h1'
    split_ifs at h1' with c2
    rw [← Res.ok.inj h1']
    simp
  refine ⟨P.gk, P, h1, p1, hP, p4, k1, k2, by omega, fun sk hsk => ?_⟩
  have hk : P.gk.kay ≤ 4745 := by
    obtain ⟨L, K, G', X, hp, -, -, -, -, -, hK, -⟩ := setParams_facts n (by omega) hn30
    have := h2.kay
    rw [hp] at this
    dsimp only at this
    omega
  have he := h2.enn
  obtain ⟨vd, vd', pd', q1, q2, q3, -⟩ := C64_start E P getG getH mer rnd sk r hsk (by omega) (by
    simp only [setIndexesNat, JLDIM, PAD_SIZE, LINYDIM]
    omega)
  exact ⟨vd, vd', pd', q1, q2, q3.setup⟩

/-- Two lists of two plaintexts as in `C71_ambiguous`. -/
example : ∀ j < 2, ([5, 8] : List (ZMod Regev.P)).getD j 0 =
    if j = 1 then ([5, 7] : List (ZMod Regev.P)).getD j 0 + 1 else ([5, 7] : List (ZMod Regev.P)).getD j 0 := by
  decide +kernel

/-- Noises as in `C71_unique`. -/
example : ∀ c, |((⟨![((-5 : ℤ) : ZMod Regev.P), ((2 ^ 124 : ℤ) : ZMod Regev.P)]⟩ : Elt (ZMod Regev.P) 2).c c).valMinAbs| <
    2 ^ 125 := by
  intro c
  fin_cases c
  · show |(((-5 : ℤ) : ZMod Regev.P)).valMinAbs| < _
    rw [valMinAbs_cast _ (by unfold Regev.P; norm_num)]
    norm_num
  · show |(((2 ^ 124 : ℤ) : ZMod Regev.P)).valMinAbs| < _
    rw [valMinAbs_cast _ (by unfold Regev.P; norm_num)]
    norm_num

end Verif.Props
