/-
C101: whoever generated the key with the library can decrypt what a verified dealer sent, and the shares reconstruct.
-/
import Verif.Props.RoundSound
import Verif.Props.Ambiguous
import Verif.Lemmas.Main

namespace Verif.Props
open Regev Spec
open scoped BigOperators

/-! ### Decryption of a ciphertext that satisfies the equations -/

section
variable {q : ℕ} [Fact q.Prime]

/-- What the decryption works on: the plaintext and the noise `⟨noise,r⟩ + e2_i - ⟨sk,e1⟩`, with the sign changed. -/
theorem decrypt_input {delta kay enn : ℕ} {A B : EMat q 2} {ct1 ct2 r e1 e2 sk noise : EVec q 2} {pt : List (ZMod q)}
    (h1 : Encrypts1 kay A ct1 r e1) (h2 : Encrypts2 delta kay enn B ct2 pt r e2) {i : ℕ} (hi : i < enn)
    (hk : KeyFor kay A (B.getD i []) sk noise) :
    (∑ k ∈ Finset.range kay, sk.getD k 0 * ct1.getD k 0) - ct2.getD i 0 =
      -(pt.getD i 0 • g q 2 delta + ((∑ k ∈ Finset.range kay, noise.getD k 0 * r.getD k 0) + e2.getD i 0 -
        ∑ k ∈ Finset.range kay, sk.getD k 0 * e1.getD k 0)) := by
  rw [h2 i hi]
  have a1 : ∑ k ∈ Finset.range kay, sk.getD k 0 * ct1.getD k 0 =
      (∑ k ∈ Finset.range kay, ∑ l ∈ Finset.range kay, sk.getD k 0 * (entry A k l * r.getD l 0)) +
        ∑ k ∈ Finset.range kay, sk.getD k 0 * e1.getD k 0 := by
    rw [← Finset.sum_add_distrib]
    refine Finset.sum_congr rfl fun k hk => ?_
    rw [h1 k (Finset.mem_range.1 hk), mul_add, Finset.mul_sum]
  have a2 : ∑ l ∈ Finset.range kay, entry B i l * r.getD l 0 =
      (∑ k ∈ Finset.range kay, ∑ l ∈ Finset.range kay, sk.getD k 0 * (entry A k l * r.getD l 0)) +
        ∑ l ∈ Finset.range kay, noise.getD l 0 * r.getD l 0 := by
    rw [Finset.sum_comm, ← Finset.sum_add_distrib]
    refine Finset.sum_congr rfl fun l hl => ?_
    have := hk l (Finset.mem_range.1 hl)
    unfold entry at this ⊢
    rw [this, add_mul, Finset.sum_mul]
    congr 1
    exact Finset.sum_congr rfl fun k _ => by rw [mul_assoc]
  rw [a1, a2]
  abel

theorem within_sq {κ : ℕ} (hκ : 3 ≤ κ) {B : ℤ} {v : EVec q 2} (h : Within κ B v) {s : ZMod q} (hs : s ∈ coeffs v) :
    s.valMinAbs ^ 2 ≤ B ^ 2 := by
  have h1 := h s hs
  have h2 : (4 : ℤ) * s.valMinAbs ^ 2 ≤ (κ + 1) * s.valMinAbs ^ 2 :=
    mul_le_mul_of_nonneg_right (by exact_mod_cast (by omega : 4 ≤ κ + 1)) (sq_nonneg _)
  linarith

theorem within_normSq {κ : ℕ} (hκ : 3 ≤ κ) {B : ℤ} {v : EVec q 2} (h : Within κ B v) :
    normSq (coeffs v) ≤ (v.length * 2 : ℕ) * B ^ 2 := by
  have := normSq_le_of_forall (B ^ 2) (coeffs v) fun s hs => within_sq hκ h hs
  rwa [coeffs_length] at this

end

/-- **C101, decryption.** Let party `i`'s row of the key matrix be the public key of a successful key generation, and let
a ciphertext satisfy the equations of an encryption of `pt` with randomness and noises within the bounds that the
proofs show (`Within`, with `κ ≥ 3`).  If the numbers fit, the party's decryption returns `pt_i`. -/
theorem C101_decrypt {P : Params Regev.P} (hP : ParamsOk P) (hdelta : P.delta = Regev.delta) {κ : ℕ} (hκ : 3 ≤ κ)
    (hr0 : 0 ≤ P.B_r) (h10 : 0 ≤ digitsBound P 3 4) (h20 : 0 ≤ digitsBound P 5 6)
    (hnum : 2 ^ P.gk.sigmaEnc1 * (P.gk.kay * 2) * P.B_r + 2 * (P.gk.kay * 2) * digitsBound P 3 4 + digitsBound P 5 6 <
      2 ^ 125)
    {rsk rno : Rnd} {sk pk noise : EVec Regev.P 2} (hkey : P.gk.keyGen rsk rno = .ok (sk, pk, noise)) {i : ℕ}
    (hpk : P.gk.B[i]? = some pk) {ct1 ct2 r e1 e2 : EVec Regev.P 2} {pt : List (ZMod Regev.P)}
    (l1 : ct1.length = P.gk.kay) (l2 : ct2.length = P.gk.enn) (lr : r.length = P.gk.kay) (le1 : e1.length = P.gk.kay)
    (le2 : e2.length = P.gk.enn) (h1 : Encrypts1 P.gk.kay P.gk.A ct1 r e1)
    (h2 : Encrypts2 P.delta P.gk.kay P.gk.enn P.gk.B ct2 pt r e2) (hr : Within κ P.B_r r)
    (he1 : Within κ (digitsBound P 3 4) e1) (he2 : Within κ (digitsBound P 5 6) e2) :
    ∃ e, P.gk.decrypt P.delta sk i (ct1, ct2) = .ok (pt.getD i 0, e) ∧ ∀ c, |(e.c c).valMinAbs| < 2 ^ 125 := by
  have hs : Shaped P.gk := ⟨hP.A.1, hP.A.2, hP.B.1, hP.B.2⟩
  have hiB := (List.getElem?_eq_some_iff.1 hpk).1
  have hi : i < P.gk.enn := by rw [← hP.B.1]; exact hiB
  obtain ⟨lsk, lno, lpk, hK⟩ := keyGen_relation hs hkey
  obtain ⟨k1, k2, -⟩ := keyGen_ok P.gk hs _ _ _ _ _ hkey
  obtain ⟨-, n1, -⟩ := sampleLoop_ok _ _ _ _ _ _ _ k1
  obtain ⟨-, n2, -⟩ := sampleLoop_ok _ _ _ _ _ _ _ k2
  have hrow : P.gk.B.getD i [] = pk := by rw [List.getD_eq_getElem?_getD, hpk]; rfl
  have key := decrypt_input h1 h2 hi (by rw [hrow]; exact hK)
  obtain ⟨e, he⟩ : ∃ e, e = (∑ k ∈ Finset.range P.gk.kay, noise.getD k 0 * r.getD k 0) + e2.getD i 0 -
    ∑ k ∈ Finset.range P.gk.kay, sk.getD k 0 * e1.getD k 0 := ⟨_, rfl⟩
  rw [← he] at key
  have hsmall : ∀ c, |(e.c c).valMinAbs| < 2 ^ 125 := by
    intro c
    obtain ⟨N1, hN1, c1⟩ := ip_coeff_bound noise r (by rw [lno, lr]) c
    obtain ⟨N2, hN2, c2⟩ := ip_coeff_bound sk e1 (by rw [lsk, le1]) c
    have hi2 : i < e2.length := by rw [le2]; exact hi
    obtain ⟨z, hz⟩ : ∃ z, z = ((e2.getD i 0).c c).valMinAbs := ⟨_, rfl⟩
    have z2 : z ^ 2 ≤ digitsBound P 5 6 ^ 2 := by
      rw [hz]
      refine within_sq hκ he2 ?_
      have : e2[i]? = some (e2.getD i 0) := by
        rw [List.getD_eq_getElem?_getD, List.getElem?_eq_getElem hi2]
        rfl
      exact List.mem_of_getElem? (coeffs_get _ i c _ this)
    have hval : e.c c = ((N1 + z - N2 : ℤ) : ZMod Regev.P) := by
      rw [he, Elt.sub_c, Elt.add_c, ← ip_eq noise r _ lno lr, ← ip_eq sk e1 _ lsk le1, hN1, hN2, hz]
      push_cast
      simp
    rw [hval]
    refine lt_of_le_of_lt (valMinAbs_le _) ?_
    have wr := within_normSq hκ hr
    have w1 := within_normSq hκ he1
    rw [lr] at wr
    rw [le1] at w1
    have b1 : |N1| ≤ 2 ^ P.gk.sigmaEnc1 * (P.gk.kay * 2) * P.B_r := by
      refine abs_le_of_sq_le_sq (c1.trans ?_) (by positivity)
      have e1 : normSq (coeffs noise) ≤ 2 ^ (2 * P.gk.sigmaEnc1) * (P.gk.kay * 2) := by
        refine n2.trans ?_
        have : (0 : ℤ) ≤ 2 ^ (2 * P.gk.sigmaEnc1) * P.gk.kay * (2 : ℕ) := by positivity
        rw [← mul_assoc]
        push_cast at this ⊢
        omega
      calc _ ≤ (2 ^ (2 * P.gk.sigmaEnc1) * (P.gk.kay * 2)) * ((P.gk.kay * 2 : ℕ) * P.B_r ^ 2) :=
            mul_le_mul e1 wr (normSq_nonneg _) (by positivity)
        _ = _ := by rw [mul_comm 2 P.gk.sigmaEnc1, pow_mul]; push_cast; ring
    have b2 : |N2| ≤ 2 * (P.gk.kay * 2) * digitsBound P 3 4 := by
      refine abs_le_of_sq_le_sq (c2.trans ?_) (by positivity)
      calc _ ≤ (4 * P.gk.kay * (2 : ℕ)) * ((P.gk.kay * 2 : ℕ) * digitsBound P 3 4 ^ 2) :=
            mul_le_mul n1 w1 (normSq_nonneg _) (by positivity)
        _ = _ := by push_cast; ring
    have b3 : |z| ≤ digitsBound P 5 6 := abs_le_of_sq_le_sq z2 h20
    have t : |N1 + z - N2| ≤ |N1| + |z| + |N2| := by
      refine (abs_sub _ _).trans ?_
      linarith [abs_add_le N1 z]
    linarith
  refine ⟨e, ?_, hsmall⟩
  unfold GlobalKey.decrypt
  rw [if_neg (by simp [lsk]), if_neg (by simp [l1, l2]), if_neg (by omega)]
  have hrd : rd ct2 ((i : ℤ).toNat) = .ok (ct2.getD i 0) := by
    rw [Int.toNat_natCast, rd_ok (by omega), List.getD_eq_getElem?_getD, List.getElem?_eq_getElem (by omega)]
    rfl
  rw [hrd, Res.ok_bind, ip_eq sk ct1 _ lsk l1, key, hdelta]
  congr 1
  have hd := C33_library (pt.getD i 0) (e.c 0).valMinAbs (e.c 1).valMinAbs (hsmall 0) (hsmall 1)
  have ez : (-(pt.getD i 0 • g Regev.P 2 Regev.delta + e) : Elt (ZMod Regev.P) 2) =
      ⟨![-(pt.getD i 0 + ((e.c 0).valMinAbs : ZMod Regev.P)),
        -(pt.getD i 0 * (Regev.delta : ZMod Regev.P) + ((e.c 1).valMinAbs : ZMod Regev.P))]⟩ := by
    rw [ZMod.coe_valMinAbs, ZMod.coe_valMinAbs]
    apply ext2
    · rw [Elt.neg_c, Elt.add_c, Elt.smul_c, g_c0, mul_one]
      rfl
    · rw [Elt.neg_c, Elt.add_c, Elt.smul_c, g_c1]
      rfl
  rw [ez, hd, ZMod.coe_valMinAbs, ZMod.coe_valMinAbs]
  congr 1
  apply ext2 <;> rfl

/-! ### The numbers of the library -/

theorem params_of {n : ℕ} {L : ℤ} {G : ℕ} {K : ℤ} (h2 : 2 ≤ n) (hn : n < 2 ^ 30)
    (h1 : (L : ℝ) - 1 < Real.logb 2 ((n * 2 : ℕ) : ℝ) + Real.log (((n * 2 - 1) / 2 : ℕ) : ℝ) / 2)
    (h3 : Real.logb 2 ((n * 2 : ℕ) : ℝ) + Real.log (((n * 2 - 1) / 2 : ℕ) : ℝ) / 2 ≤ L) (hK : (setParams 2 n).1 = K)
    (h4 : 4 * (124080 * (2 * K) * ((n * 2 - 1) / 2 : ℕ)) < ((2 : ℤ) ^ (G + 1)) ^ 2) :
    (setParams 2 n).2.1 = 109 - L ∧ (setParams 2 n).2.2 ≤ 109 - L + G := by
  obtain ⟨L', K', G', X, hp, hL, -, -, -, -, -, hX, hG, -, hGX, -⟩ := setParams_facts n h2 hn
  have e : L' = L := by rw [hL, Int.ceil_eq_iff]; exact ⟨h1, h3⟩
  obtain ⟨G', rfl⟩ := Int.eq_ofNat_of_zero_le hG
  have eK : K' = K := by rw [← hK, hp]
  rw [hp, e]
  refine ⟨rfl, ?_⟩
  rw [hX, eK] at hGX
  have : G' < G + 1 := pow2_lt (lt_of_le_of_lt (by simpa using hGX) h4)
  show 109 - L + (G' : ℤ) ≤ 109 - L + G
  omega

/-- Dimension and noise sizes for 256, 512 and 1024 parties (of the size of the second noise, an upper bound). -/
theorem params_values {n : ℕ} (hn : n = 256 ∨ n = 512 ∨ n = 1024) :
    ∃ (s1 s2 : ℕ), (setParams 2 n).2.1 = s1 ∧ (setParams 2 n).2.2 ≤ s2 ∧
      ((n = 256 ∧ (setParams 2 n).1 = 2944 ∧ s1 = 97 ∧ s2 = 116) ∨
       (n = 512 ∧ (setParams 2 n).1 = 2982 ∧ s1 = 95 ∧ s2 = 115) ∨
       (n = 1024 ∧ (setParams 2 n).1 = 3000 ∧ s1 = 94 ∧ s2 = 114)) := by
  have g1 := Real.log_two_gt_d9
  have g2 := Real.log_two_lt_d9
  rcases hn with rfl | rfl | rfl
  · have e : Real.logb 2 ((256 * 2 : ℕ) : ℝ) = 9 := by
      rw [show ((256 * 2 : ℕ) : ℝ) = 2 ^ 9 by norm_num, logb_pow2]; norm_num
    have a1 : Real.log (((256 * 2 - 1) / 2 : ℕ) : ℝ) ≤ ((8 : ℕ) : ℝ) * Real.log 2 := by
      rw [← Real.log_pow]
      exact Real.log_le_log (by norm_num) (by norm_num)
    have a2 : ((7 : ℕ) : ℝ) * Real.log 2 ≤ Real.log (((256 * 2 - 1) / 2 : ℕ) : ℝ) := by
      rw [← Real.log_pow]
      exact Real.log_le_log (by norm_num) (by norm_num)
    obtain ⟨p1, p2⟩ := params_of (n := 256) (L := 12) (G := 19) (by norm_num) (by norm_num)
      (by rw [e]; push_cast at *; linarith) (by rw [e]; push_cast at *; linarith) C66_good_dimension.1 (by norm_num)
    exact ⟨97, 116, by rw [p1]; norm_num, p2.trans (by norm_num),
      Or.inl ⟨rfl, C66_good_dimension.1, rfl, rfl⟩⟩
  · have e : Real.logb 2 ((512 * 2 : ℕ) : ℝ) = 10 := by
      rw [show ((512 * 2 : ℕ) : ℝ) = 2 ^ 10 by norm_num, logb_pow2]; norm_num
    have a1 : Real.log (((512 * 2 - 1) / 2 : ℕ) : ℝ) ≤ ((9 : ℕ) : ℝ) * Real.log 2 := by
      rw [← Real.log_pow]
      exact Real.log_le_log (by norm_num) (by norm_num)
    have a2 : 26 * Real.log 2 ≤ 3 * Real.log (((512 * 2 - 1) / 2 : ℕ) : ℝ) := by
      rw [show (26 : ℝ) = ((26 : ℕ) : ℝ) by norm_num, ← Real.log_pow, show (3 : ℝ) = ((3 : ℕ) : ℝ) by norm_num,
        ← Real.log_pow]
      exact Real.log_le_log (by norm_num) (by norm_num)
    obtain ⟨p1, p2⟩ := params_of (n := 512) (L := 14) (G := 20) (by norm_num) (by norm_num)
      (by rw [e]; push_cast at *; linarith) (by rw [e]; push_cast at *; linarith) C66_default_dimension (by norm_num)
    exact ⟨95, 115, by rw [p1]; norm_num, p2.trans (by norm_num),
      Or.inr (Or.inl ⟨rfl, C66_default_dimension, rfl, rfl⟩)⟩
  · have e : Real.logb 2 ((1024 * 2 : ℕ) : ℝ) = 11 := by
      rw [show ((1024 * 2 : ℕ) : ℝ) = 2 ^ 11 by norm_num, logb_pow2]; norm_num
    have a1 : Real.log (((1024 * 2 - 1) / 2 : ℕ) : ℝ) ≤ ((10 : ℕ) : ℝ) * Real.log 2 := by
      rw [← Real.log_pow]
      exact Real.log_le_log (by norm_num) (by norm_num)
    have a2 : ((9 : ℕ) : ℝ) * Real.log 2 ≤ Real.log (((1024 * 2 - 1) / 2 : ℕ) : ℝ) := by
      rw [← Real.log_pow]
      exact Real.log_le_log (by norm_num) (by norm_num)
    obtain ⟨p1, p2⟩ := params_of (n := 1024) (L := 15) (G := 20) (by norm_num) (by norm_num)
      (by rw [e]; push_cast at *; linarith) (by rw [e]; push_cast at *; linarith) C66_good_dimension.2 (by norm_num)
    exact ⟨94, 114, by rw [p1]; norm_num, p2.trans (by norm_num),
      Or.inr (Or.inr ⟨rfl, C66_good_dimension.2, rfl, rfl⟩)⟩

theorem close_le {B : ℤ} {a s c : ℝ} (hc : Close B (√a * s)) (hs : 1 ≤ s) (h0 : 0 ≤ c) (ha : a ≤ c ^ 2) (hc1 : 1 ≤ c) :
    (B : ℝ) ≤ (1.001 * c + 1) * s := by
  have h1 := (abs_le.1 hc).2
  have h2 : √a ≤ c := (Real.sqrt_le_left h0).2 ha
  have h3 : √a * s ≤ c * s := mul_le_mul_of_nonneg_right h2 (by linarith)
  linarith

/-- **C101, the library's numbers.** With 256, 512 or 1024 parties the numbers fit. -/
theorem C101_numbers {P : Params Regev.P} {b m : ℤ} {n : ℕ} (hn : n = 256 ∨ n = 512 ∨ n = 1024) (hg : Standard P.gk n)
    (h : BoundsClose P b m) :
    0 ≤ P.B_r ∧ 0 ≤ digitsBound P 3 4 ∧ 0 ≤ digitsBound P 5 6 ∧
      2 ^ P.gk.sigmaEnc1 * (P.gk.kay * 2) * P.B_r + 2 * (P.gk.kay * 2) * digitsBound P 3 4 + digitsBound P 5 6 <
        2 ^ 125 := by
  have h5 : 5 ≤ n := by omega
  obtain ⟨f1, f2, f3, f4, f5, f6, f7, f8, -⟩ := standard_facts hg h5 (by omega) h
  have hr0 : 0 < P.radix := by omega
  have nb := fun k hk => (normBound_range hg h5 (by omega) h k hk).1
  obtain ⟨-, d1, d2, -⟩ := C70_numbers P hr0
  have pos : ∀ lo hi, lo < 10 → hi < 10 → 0 ≤ digitsBound P hi lo := fun lo hi hl hh =>
    add_nonneg (nb lo hl) (mul_nonneg hr0.le (nb hi hh))
  refine ⟨by rw [h.r]; omega, pos _ _ (by norm_num) (by norm_num), pos _ _ (by norm_num) (by norm_num), ?_⟩
  obtain ⟨s1, s2, e1, e2, hv⟩ := params_values hn
  have hs1 : P.gk.sigmaEnc1 = s1 := by have := hg.sigma1; omega
  have hs2 : P.gk.sigmaEnc2 ≤ s2 := by have := hg.sigma2; omega
  have hcs : ∀ d : ℕ, d ≤ 10000 → (ceilSqrt d : ℤ) ≤ 101 := by
    intro d hd
    have : ceilSqrt d ≤ 101 := by
      unfold ceilSqrt
      have := Nat.sqrt_le_sqrt hd
      have e : Nat.sqrt 10000 ≤ 100 := Nat.lt_succ_iff.1 (Nat.sqrt_lt.2 (by norm_num))
      split <;> omega
    exact_mod_cast this
  have hslack : ∀ d : ℕ, d ≤ 10000 → P.radix * ((ceilSqrt d : ℤ) + 16) ≤ 2 ^ 67 := by
    intro d hd
    have := hcs d hd
    calc P.radix * ((ceilSqrt d : ℤ) + 16) ≤ 2 ^ 60 * 117 := mul_le_mul f8 (by omega) (by positivity) (by norm_num)
      _ ≤ 2 ^ 67 := by norm_num
  have hk1 := h.kNoise
  rw [← h.eNoise1, hs1] at hk1
  have hk2 := h.eNoise2
  have hpow : (2 : ℝ) ^ P.gk.sigmaEnc2 ≤ 2 ^ s2 := pow_le_pow_right₀ (by norm_num) hs2
  have kr : ((P.gk.kay : ℤ) : ℝ) = (P.gk.kay : ℝ) := Int.cast_natCast _
  have hkay := hg.kay
  have henn := hg.enn
  have a1 : P.gk.kay ≤ 3000 := by omega
  have q1 : (P.B_eNoise1 : ℝ) ≤ (1.001 * 1006 + 1) * 2 ^ s1 := by
    refine close_le hk1 (one_le_pow₀ (by norm_num)) (by norm_num) ?_ (by norm_num)
    have : (P.gk.kay : ℝ) ≤ 3000 := by exact_mod_cast a1
    linarith
  have q2 : (P.B_eNoise2 : ℝ) ≤ (1.001 * √(337 * n) + 1) * 2 ^ s2 := by
    refine (close_le (c := √(337 * n)) hk2 (one_le_pow₀ (by norm_num)) (by positivity) ?_ ?_).trans
      (mul_le_mul_of_nonneg_left hpow (by positivity))
    · rw [Real.sq_sqrt (by positivity), henn]
      linarith
    · rw [Real.one_le_sqrt]
      have : (5 : ℝ) ≤ n := by exact_mod_cast h5
      linarith
  have Q1 : P.B_eNoise1 ≤ 1009 * 2 ^ s1 := by
    have : (P.B_eNoise1 : ℝ) ≤ ((1009 * 2 ^ s1 : ℤ) : ℝ) := by
      push_cast
      refine q1.trans (mul_le_mul_of_nonneg_right (by norm_num) (by positivity))
    exact_mod_cast this
  have hsq : ∀ c : ℝ, 0 ≤ c → 337 * (n : ℝ) ≤ c ^ 2 → √(337 * n) ≤ c := fun c h0 hc => (Real.sqrt_le_left h0).2 hc
  have Q2 : ∀ c : ℕ, 337 * n ≤ c ^ 2 → P.B_eNoise2 ≤ (c + 2) * 2 ^ s2 ∨ 1000 < c := by
    intro c hc
    rcases Nat.lt_or_ge 1000 c with hc' | hc'
    · exact Or.inr hc'
    left
    have e := hsq c (by positivity) (by exact_mod_cast hc)
    have c1 : (c : ℝ) ≤ 1000 := by exact_mod_cast hc'
    have : (P.B_eNoise2 : ℝ) ≤ (((c + 2) * 2 ^ s2 : ℤ) : ℝ) := by
      push_cast
      refine q2.trans (mul_le_mul_of_nonneg_right ?_ (by positivity))
      linarith
    exact_mod_cast this
  have sl1 := hslack (P.gk.kay * 2) (by omega)
  have sl2 := hslack (P.gk.enn * 2) (by omega)
  have hB : P.B_r ≤ 3600 := by rw [h.r]; exact f5
  have D1 : digitsBound P 3 4 ≤ 1009 * 2 ^ s1 + 2 ^ 67 := d1.trans (add_le_add Q1 sl1)
  have t1 : 2 ^ P.gk.sigmaEnc1 * ((P.gk.kay : ℤ) * 2) * P.B_r ≤ 2 ^ s1 * 6000 * 3600 := by
    rw [hs1]
    refine mul_le_mul (mul_le_mul_of_nonneg_left (by omega) (by positivity)) hB (by rw [h.r]; omega) (by positivity)
  have t2 : 2 * ((P.gk.kay : ℤ) * 2) * digitsBound P 3 4 ≤ 12000 * (1009 * 2 ^ s1 + 2 ^ 67) :=
    mul_le_mul (by omega) D1 (pos _ _ (by norm_num) (by norm_num)) (by norm_num)
  rcases hv with ⟨rfl, -, rfl, rfl⟩ | ⟨rfl, -, rfl, rfl⟩ | ⟨rfl, -, rfl, rfl⟩
  · have := (Q2 294 (by norm_num)).resolve_right (by norm_num)
    norm_num at *
    linarith
  · have := (Q2 416 (by norm_num)).resolve_right (by norm_num)
    norm_num at *
    linarith
  · have := (Q2 588 (by norm_num)).resolve_right (by norm_num)
    norm_num at *
    linarith

/-! ### A round with a dealer that is not trusted -/

section
variable {G : Type} [AddCommGroup G] [Module (ZMod Regev.P) G]

/-- **C101.** If the constraints that a round records hold for the values `x` (of the norm constraints, all but the first)
and the challenges are good for them, then every party whose row of the key matrix came from a successful key
generation decrypts the dealer's ciphertext to the plaintext that is committed to for it, whatever the dealer did. -/
theorem C101_round {E : Env (ZMod Regev.P) G} (hE : LengthOk E) {P : Params Regev.P} {b m : ℤ} {n : ℕ}
    (hn : n = 256 ∨ n = 512 ∨ n = 1024) (hg : Standard P.gk n) (hb : BoundsClose P b m) (hP : ParamsOk P)
    (hdelta : P.delta = Regev.delta)
    {tests : ℕ → Tests} (hT : ∀ k, NoFalsePrimes (tests k).probPrime) {fresh : Blocks (ZMod Regev.P)}
    {small : ℕ → SmallRnd Regev.P} {inp : RoundInput Regev.P} (hI : Sized P inp)
    {vd vd' : VerifierData (ZMod Regev.P) G E.St} {pd pd' : ProverData (ZMod Regev.P)} (S : Setup P vd pd)
    (hempty : ∀ c ∈ vd.linConstr, c = ⟨[], 0⟩)
    (h : proveRound E P fresh tests small inp vd pd = .ok (vd', pd'))
    (x : ℕ → ZMod Regev.P) (hlin : ∀ c ∈ vd'.linConstr, LinSat c x)
    (hnorm : ∀ k (hk : k < vd'.normConstr.length), 0 < k → QuadSat vd'.normConstr[k] x x) {κ : ℕ} (hκ : 3 ≤ κ)
    (good : GoodRound P inp vd.ix x (roundChallenges E vd.mer P.gk.kay P.gk.enn P.gk.tee vd'.com vd'.z) vd'.z κ)
    {rsk rno : Rnd} {sk pk noise : EVec Regev.P 2} (hkey : P.gk.keyGen rsk rno = .ok (sk, pk, noise)) {i : ℕ}
    (hpk : P.gk.B[i]? = some pk) :
    ∃ e, P.gk.decrypt P.delta sk i (inp.ct1, inp.ct2) = .ok (x (vd.ix.pt2 + i), e) := by
  have h28 : n < 2 ^ 28 := by omega
  obtain ⟨sk1, pt1, dNoise, r, pt2, eNoise1, eNoise2, sk2, kNoise, T, -⟩ :=
    C73_round hE hg (by omega) h28 hb hP hT hI S hempty h x hlin hnorm good
  obtain ⟨a1, a2, a3, a4⟩ := C101_numbers hn hg hb
  obtain ⟨-, -, -, l4, l5, l6, l7, -⟩ := T.lengths
  obtain ⟨e, he, -⟩ := C101_decrypt hP hdelta hκ a1 a2 a3 a4 hkey hpk hI.ct1 hI.ct2 l4 l6 l7 T.encrypts1 T.encrypts2
    T.rSmall T.eNoise1Small T.eNoise2Small
  refine ⟨e, ?_⟩
  have hi : i < pt2.length := by
    rw [l5, ← hP.B.1]
    exact (List.getElem?_eq_some_iff.1 hpk).1
  have hr := T.reads.2.2.2.1 i (pt2.getD i 0) (by
    rw [List.getD_eq_getElem?_getD, List.getElem?_eq_getElem hi]
    rfl)
  rw [he, hr]

/-- **C101, the secret.** In the same situation let the parity-check matrix be the one of the sharing parameters for the
evaluation points `pts` and threshold `t`, and let the parties at the points `sub`, at least `t` of them, have keys
from successful key generations.  If `share p` is what the party at point `p` gets by decrypting the dealer's
ciphertext, then reconstruction from these shares returns the secret that the dealer's plaintexts reconstruct to. -/
theorem C101_secret {E : Env (ZMod Regev.P) G} (hE : LengthOk E) {P : Params Regev.P} {b m : ℤ} {n : ℕ}
    (hn : n = 256 ∨ n = 512 ∨ n = 1024) (hg : Standard P.gk n) (hb : BoundsClose P b m) (hP : ParamsOk P)
    (hdelta : P.delta = Regev.delta)
    {tests : ℕ → Tests} (hT : ∀ k, NoFalsePrimes (tests k).probPrime) {fresh : Blocks (ZMod Regev.P)}
    {small : ℕ → SmallRnd Regev.P} {inp : RoundInput Regev.P} (hI : Sized P inp)
    {vd vd' : VerifierData (ZMod Regev.P) G E.St} {pd pd' : ProverData (ZMod Regev.P)} (S : Setup P vd pd)
    (hempty : ∀ c ∈ vd.linConstr, c = ⟨[], 0⟩)
    (h : proveRound E P fresh tests small inp vd pd = .ok (vd', pd'))
    (x : ℕ → ZMod Regev.P) (hlin : ∀ c ∈ vd'.linConstr, LinSat c x)
    (hnorm : ∀ k (hk : k < vd'.normConstr.length), 0 < k → QuadSat vd'.normConstr[k] x x) {κ : ℕ} (hκ : 3 ≤ κ)
    (good : GoodRound P inp vd.ix x (roundChallenges E vd.mer P.gk.kay P.gk.enn P.gk.tee vd'.com vd'.z) vd'.z κ)
    {ntlKernel : List (List (ZMod Regev.P)) → List (List (ZMod Regev.P))}
    (hker : ∀ G nr nc, G.length = nr → (∀ r ∈ G, r.length = nc) → GeneratesLeftKernel (ntlKernel G) G nr nc)
    {pts : List ℤ} (hpts : pts.length = n) (hgp : GoodPoints (ZMod Regev.P) pts) {t : ℕ} (ht : 1 ≤ t)
    {sp : SharingParams (ZMod Regev.P)} (hsp : SharingParams.make ntlKernel pts t = .ok sp) (hH : P.H = sp.H)
    {sub : List ℤ} (hsub : sub.Sublist pts) (htsub : t ≤ sub.length) (share : ℤ → ZMod Regev.P)
    (honest : ∀ (i : ℕ) (p : ℤ), pts[i]? = some p → p ∈ sub → ∃ rsk rno sk pk noise e,
      P.gk.keyGen rsk rno = .ok (sk, pk, noise) ∧ P.gk.B[i]? = some pk ∧
      P.gk.decrypt P.delta sk i (inp.ct1, inp.ct2) = .ok (share p, e)) :
    getSecret (sub.map share) sub =
      .ok (∑ i ∈ Finset.range P.gk.tee, inp.lagrange.getD i 0 * x (vd.ix.pt1 + i)) := by
  have h28 : n < 2 ^ 28 := by omega
  obtain ⟨sk1, pt1, dNoise, r, pt2, eNoise1, eNoise2, sk2, kNoise, T, -⟩ :=
    C73_round hE hg (by omega) h28 hb hP hT hI S hempty h x hlin hnorm good
  obtain ⟨-, l2, -, -, l5, -⟩ := T.lengths
  have rd2 : ∀ {i}, i < n → pt2.getD i 0 = x (vd.ix.pt2 + i) := by
    intro i hi
    refine (T.reads.2.2.2.1 i (pt2.getD i 0) ?_).symm
    rw [List.getD_eq_getElem?_getD, List.getElem?_eq_getElem (by rw [l5, hg.enn]; exact hi)]
    rfl
  have rd1 : ∑ i ∈ Finset.range P.gk.tee, inp.lagrange.getD i 0 * pt1.getD i 0 =
      ∑ i ∈ Finset.range P.gk.tee, inp.lagrange.getD i 0 * x (vd.ix.pt1 + i) := by
    refine Finset.sum_congr rfl fun i hi => ?_
    congr 1
    refine (T.reads.2.1 i (pt1.getD i 0) ?_).symm
    rw [List.getD_eq_getElem?_getD, List.getElem?_eq_getElem (by rw [l2]; exact Finset.mem_range.1 hi)]
    rfl
  obtain ⟨sp', hsp', -, -, hiff⟩ := C24_parity_check ntlKernel hker pts t ht
  rw [hsp] at hsp'
  obtain rfl := Res.ok.inj hsp'
  have hre := T.reshares
  rw [hH, rd1] at hre
  obtain ⟨s, hs⟩ : ∃ s, s = ∑ i ∈ Finset.range P.gk.tee, inp.lagrange.getD i 0 * x (vd.ix.pt1 + i) := ⟨_, rfl⟩
  rw [← hs] at hre ⊢
  have hv := (hiff (s :: pt2) (by rw [List.length_cons, l5, hpts, hg.enn])).1 hre
  obtain ⟨s', e1, e2⟩ := C23_reconstruct pts t _ hv sub hsub htsub hgp
  obtain rfl : s = s' := Option.some.inj e1
  rw [← e2]
  congr 1
  obtain ⟨p, -, hp⟩ := hv
  obtain ⟨hp0, hp1⟩ := List.cons.inj hp
  rw [hp, sharesAt_eq pts (p.eval 0) (fun x => p.eval (x : ZMod Regev.P)) sub hsub hgp.nodup]
  refine List.map_congr_left fun y hy => ?_
  obtain ⟨i, hi⟩ := List.getElem?_of_mem (hsub.subset hy)
  have hin : i < n := by rw [← hpts]; exact (List.getElem?_eq_some_iff.1 hi).1
  obtain ⟨rsk, rno, sk, pk, noise, e, k1, k2, k3⟩ := honest i y hi hy
  obtain ⟨e', k4⟩ := C101_round hE hn hg hb hP hdelta hT hI S hempty h x hlin hnorm hκ good k1 k2
  rw [k3] at k4
  have k5 := congrArg Prod.fst (Res.ok.inj k4)
  dsimp only at k5
  rw [k5, ← rd2 hin, hp1, List.getD_eq_getElem?_getD, List.getElem?_map, hi]
  rfl

end

end Verif.Props
