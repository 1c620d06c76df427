/-
C103: the parameters and the norm bounds, computed with doubles.
-/
import Verif.Lemmas.Doubles2
import Verif.Props.Receiver
import Verif.Props.Library

namespace Verif.Props
open Spec Regev

section
variable {M : Machine}

/-- The number of bits of the radix. -/
theorem radixBits_close (hM : Ieee M) {l L : ℝ} {b : ℤ} (i : IsDouble l) (hl : |l - L| ≤ 0.003) (h1 : 1 ≤ l)
    (h2 : l ≤ 300) (hb : b = ⌈M.div l (M.dbl 2)⌉ - 3) : -3 ≤ b ∧ b ≤ 200 ∧ CloseCeil b (L / 2 - 3) := by
  have big : (10 : ℝ) ^ 20 ≤ 2 ^ 200 := by norm_num
  have a := hM.div2A ⟨i, near_self (by linarith), by norm_num, by linarith, le_trans (by linarith) big⟩ (1 / 10 ^ 12)
    (by linarith) (by norm_num) (by norm_num)
  obtain ⟨d, hd⟩ : ∃ d, d = M.div l (M.dbl 2) := ⟨_, rfl⟩
  rw [← hd] at a hb
  have a1 := a.near.lo
  have a2 := a.near.hi
  have h3 := abs_le.1 hl
  have e : b = ⌈d - 3⌉ := by rw [hb, ← Int.ceil_sub_ofNat]
  have c1 := Int.le_ceil (d - 3)
  have c2 := Int.ceil_lt_add_one (d - 3)
  rw [← e] at c1 c2
  refine ⟨?_, ?_, ?_⟩
  · have : (-3 : ℝ) < b := by linarith
    have : (-3 : ℤ) < b := by exact_mod_cast this
    omega
  · have : (b : ℝ) ≤ 200 := by linarith
    exact_mod_cast this
  · rw [e]
    apply ceil_closeCeil
    rw [abs_le]
    constructor <;> linarith

/-- The number of bits of the masks. -/
theorem mask_close (hM : Ieee M) {l L : ℝ} {b m : ℤ} (i : IsDouble l) (hl : |l - L| ≤ 0.003) (h1 : 1 ≤ l)
    (h2 : l ≤ 300) (b1 : -3 ≤ b) (b2 : b ≤ 200)
    (hm : m = ⌈M.sub (M.add (M.log2 (M.mul (M.mul (M.dbl 9.75) (M.dbl 129)) (M.sqrt (M.dbl 2600)))) l) (M.dbl b)⌉) :
    CloseCeil m (Real.logb 2 (9.75 * 129 * √2600) + L - b) := by
  have big : (10 : ℝ) ^ 20 ≤ 2 ^ 200 := by norm_num
  have d1 := hM.dblR (x := 9.75) (by norm_num) (le_trans (by norm_num) big)
  have d2 : Ap 0 (M.dbl 129) 129 := by simpa using hM.dblN (n := 129) (by norm_num) (by norm_num)
  have d3 : Ap 0 (M.dbl 2600) 2600 := by simpa using hM.dblN (n := 2600) (by norm_num) (by norm_num)
  have hc := c2600
  have a := hM.mulA d1 d2 (1 / 10 ^ 14) (by norm_num) (le_trans (by norm_num) big) (by norm_num) (by norm_num)
  have s := hM.sqrtA d3 (1 / 10 ^ 14) (by norm_num) (by norm_num) (by norm_num)
  have a := hM.mulA a s (1 / 10 ^ 13) (by linarith) (le_trans (by linarith) big) (by norm_num) (by norm_num)
  generalize M.mul (M.mul (M.dbl 9.75) (M.dbl 129)) (M.sqrt (M.dbl 2600)) = x at *
  generalize 9.75 * 129 * √(2600 : ℝ) = c at *
  have x1 : 2 ≤ x := by have := a.near.lo; linarith
  have x2 : x ≤ 2 ^ 200 := le_trans (by have := a.near.hi; linarith) big
  have g1 := Real.log_two_gt_d9
  have c0 : 0 < c := by linarith
  have lc2 : Real.logb 2 c ≤ 16 := by
    rw [Real.logb_le_iff_le_rpow (by norm_num) c0]
    norm_num; linarith
  have lc1 : 15 ≤ Real.logb 2 c := by
    rw [Real.le_logb_iff_rpow_le (by norm_num) c0]
    norm_num; linarith
  have q1 : |Real.logb 2 x - Real.logb 2 c| ≤ 1 / 10 ^ 6 := by
    unfold Real.logb
    rw [← sub_div, abs_div, abs_of_pos (show 0 < Real.log 2 by linarith), div_le_iff₀ (by linarith)]
    refine (log_near a.near (by norm_num)).trans ?_
    norm_num; linarith
  have q1' := abs_le.1 q1
  obtain ⟨i2, q2⟩ := hM.log2 x a.isD x1 x2
  have q3 : |M.log2 x - Real.logb 2 x| ≤ 1 / 10 ^ 6 := q2.trans (by
    rw [div_le_iff₀ (by positivity)]; norm_num; linarith)
  have q3' := abs_le.1 q3
  obtain ⟨y, hy⟩ : ∃ y, y = M.log2 x := ⟨_, rfl⟩
  rw [← hy] at i2 q3' hm
  have up : ∀ z : ℝ, |z| ≤ 1000 → |z| ≤ 2 ^ 1000 := fun z hz =>
    hz.trans (le_trans (by norm_num) (pow_le_pow_right₀ (by norm_num : (1 : ℝ) ≤ 2) (show 10 ≤ 1000 by norm_num)))
  have up' : (1000 : ℝ) ≤ 2 ^ 1000 := le_trans (by norm_num) (pow_le_pow_right₀ (by norm_num : (1 : ℝ) ≤ 2) (show 10 ≤ 1000 by norm_num))
  have r1 := hM.add y l i2 i (up _ (by rw [abs_le]; constructor <;> linarith))
  have r2 := r1.rel (by linarith) (le_trans (by linarith) up')
  have r3 : |M.add y l - (y + l)| ≤ 1 / 10 ^ 6 := r2.trans (by
    rw [div_le_iff₀ (by positivity)]; norm_num; linarith)
  have r3' := abs_le.1 r3
  obtain ⟨z, hz⟩ : ∃ z, z = M.add y l := ⟨_, rfl⟩
  rw [← hz] at r3' hm r1
  have ib : IsDouble (b : ℝ) := isDouble_int (by rw [abs_lt]; constructor <;> omega)
  have rb1 : (-3 : ℝ) ≤ b := by exact_mod_cast b1
  have rb2 : (b : ℝ) ≤ 200 := by exact_mod_cast b2
  have eb : M.dbl b = b := (hM.dbl b (up _ (by rw [abs_le]; constructor <;> linarith))).exact ib
  rw [eb] at hm
  have t1 := hM.sub z b r1.1 ib (up _ (by rw [abs_le]; constructor <;> linarith))
  have t2 : |M.sub z b - (z - b)| ≤ 1 / 10 ^ 6 :=
    (t1.abs (by rw [abs_le]; constructor <;> norm_num <;> linarith)).trans (by norm_num)
  have t2' := abs_le.1 t2
  have h3 := abs_le.1 hl
  rw [hm]
  apply ceil_closeCeil
  rw [abs_le]
  constructor <;> linarith

/-- The bound on the masked vectors. -/
theorem smallness_close (hM : Ieee M) (m : ℕ) :
    Close ⌊M.rrMul (M.rr (2 ^ m)) (M.div (M.dbl 128) (M.dbl 129))⌋ (128 / 129 * 2 ^ m) := by
  have big : (10 : ℝ) ^ 20 ≤ 2 ^ 200 := by norm_num
  have d1 : Ap 0 (M.dbl 128) 128 := by simpa using hM.dblN (n := 128) (by norm_num) (by norm_num)
  have d2 : Ap 0 (M.dbl 129) 129 := by simpa using hM.dblN (n := 129) (by norm_num) (by norm_num)
  have e1 : M.dbl 128 = 128 := by
    have := d1.near.2.2; rw [zero_mul] at this; linarith [abs_nonpos_iff.1 this]
  have e2 : M.dbl 129 = 129 := by
    have := d2.near.2.2; rw [zero_mul] at this; linarith [abs_nonpos_iff.1 this]
  have hn := near_self (show (0 : ℝ) < 128 / 129 by norm_num)
  have i1 := d1.isD
  have i2 := d2.isD
  rw [e1] at i1 ⊢
  rw [e2] at i2 ⊢
  have h1 : (128 / 129 : ℝ) ≤ 2 ^ 200 := le_trans (by norm_num) big
  have a := (hM.div 128 129 i1 i2 (by norm_num) (range_of_near hn (by norm_num) h1)).ap hn (by norm_num) (by norm_num) h1
    (show _ ≤ (1 / 10 ^ 12 : ℝ) by norm_num) (by norm_num)
  have := hM.multA a (y := 2 ^ m) (by positivity)
  push_cast at this
  rw [mul_comm (128 / 129 : ℝ)]
  exact floor_close_near this (by norm_num)

/-- **C103, the bounds.** On every machine with IEEE arithmetic the constructor of `VerifierData` does not throw for
the parameters of 5 or more parties, and the bounds that it computes are as close to the real numbers as the
other theorems need. -/
theorem C103_bounds (hM : Ieee M) (delta : ℕ) (gk : GlobalKey Regev.P 2) (H : List (List (ZMod Regev.P))) {n : ℕ}
    (hg : Standard gk n) (h5 : 5 ≤ n) (hn : n < 2 ^ 30) :
    ∃ P b m, M.verifierBounds delta gk H = .ok P ∧ P.gk = gk ∧ P.H = H ∧ P.delta = delta ∧ BoundsClose P b m := by
  obtain ⟨Q, hs, hQ⟩ := hg.sizes h5 hn
  have k1 : 4096 ≤ gk.kay * 2 := by exact_mod_cast hs.kk_lo
  have k2 : gk.kay * 2 ≤ 9490 := by exact_mod_cast hs.kk_hi
  have n1 : 10 ≤ gk.enn * 2 := by exact_mod_cast hs.nn_lo
  have n2 : gk.enn * 2 ≤ 2 ^ 31 := by exact_mod_cast hs.nn_hi
  have K1 : (4096 : ℝ) ≤ gk.kay * 2 := by exact_mod_cast k1
  have K2 : (gk.kay : ℝ) * 2 ≤ 9490 := by exact_mod_cast k2
  have N1 : (10 : ℝ) ≤ gk.enn * 2 := by exact_mod_cast n1
  have N2 : (gk.enn : ℝ) * 2 ≤ 2 ^ 31 := by exact_mod_cast n2
  have big : (10 : ℝ) ^ 20 ≤ 2 ^ 200 := by norm_num
  have d2 : Ap 0 (M.dbl 2) 2 := by simpa using hM.dblN (n := 2) (by norm_num) (by norm_num)
  have d337 : Ap 0 (M.dbl 337) 337 := by simpa using hM.dblN (n := 337) (by norm_num) (by norm_num)
  have d377 : Ap 0 (M.dbl 377) 377 := by simpa using hM.dblN (n := 377) (by norm_num) (by norm_num)
  have dk := hM.dblN (n := gk.kay * 2) (by omega) (by omega)
  have dn := hM.dblN (n := gk.enn * 2) (by omega) (by omega)
  have dkk := hM.dblN (n := 337 * (gk.kay * 2)) (by omega) (by omega)
  -- the secret key
  have s1 : Ap (1 / 10 ^ 12) (M.mul (M.dbl 2) (M.sqrt (M.dbl ((337 * (gk.kay * 2) : ℕ) : ℝ))))
      (2 * √(337 * (gk.kay * 2))) := by
    have a := hM.sqrtA dkk (1 / 10 ^ 13) (by push_cast; linarith) (by norm_num) (by norm_num)
    push_cast at a ⊢
    have l : 1 ≤ √(337 * ((gk.kay : ℝ) * 2)) := Real.one_le_sqrt.2 (by linarith)
    refine hM.mulA d2 a _ (by linarith) ?_ (by norm_num) (by norm_num)
    have := hs.s.2
    exact le_trans (by linarith) big
  -- the noises
  have t1 : Ap (1 / 10 ^ 12) (M.sqrt (M.div (M.mul (M.dbl (gk.kay * 2 : ℕ)) (M.dbl 337)) (M.dbl 2)))
      √(337 * (gk.kay * 2) / 2) := by
    have a := hM.mulA dk d337 (1 / 10 ^ 14) (by push_cast; linarith) (le_trans (by push_cast; linarith) big) (by norm_num)
      (by norm_num)
    have a := hM.div2A a (1 / 10 ^ 13) (by push_cast; linarith) (by norm_num) (by norm_num)
    have a := hM.sqrtA a (1 / 10 ^ 12) (by push_cast; linarith) (by norm_num) (by norm_num)
    rwa [show ((gk.kay * 2 : ℕ) : ℝ) * 337 / 2 = 337 * (gk.kay * 2) / 2 by push_cast; ring] at a
  have t2 : Ap (1 / 10 ^ 12) (M.sqrt (M.div (M.mul (M.dbl (gk.enn * 2 : ℕ)) (M.dbl 337)) (M.dbl 2)))
      √(337 * (gk.enn * 2) / 2) := by
    have a := hM.mulA dn d337 (1 / 10 ^ 14) (by push_cast; linarith) (le_trans (by push_cast; linarith) big) (by norm_num)
      (by norm_num)
    have a := hM.div2A a (1 / 10 ^ 13) (by push_cast; linarith) (by norm_num) (by norm_num)
    have a := hM.sqrtA a (1 / 10 ^ 12) (by push_cast; linarith) (by norm_num) (by norm_num)
    rwa [show ((gk.enn * 2 : ℕ) : ℝ) * 337 / 2 = 337 * (gk.enn * 2) / 2 by push_cast; ring] at a
  have t3 : Ap (1 / 10 ^ 12) (M.mul (M.sqrt (M.dbl 337)) (M.dbl 1.7)) (√337 * 1.7) := by
    have a := hM.sqrtA d337 (1 / 10 ^ 13) (by norm_num) (by norm_num) (by norm_num)
    have b := hM.dblR (x := 1.7) (by norm_num) (le_trans (by norm_num) big)
    have h1 := r337
    exact hM.mulA a b _ (by linarith) (le_trans (by linarith) big) (by norm_num) (by norm_num)
  have t4 : Ap (1 / 10 ^ 12) (M.sqrt (M.mul (M.mul (M.dbl (gk.kay * 2 : ℕ)) (M.dbl (gk.enn * 2 : ℕ))) (M.dbl 377)))
      √(377 * (gk.kay * 2) * (gk.enn * 2)) := by
    have u1 : (4096 : ℝ) * 10 ≤ (gk.kay * 2) * (gk.enn * 2) := mul_le_mul K1 N1 (by norm_num) (by positivity)
    have u2 : ((gk.kay : ℝ) * 2) * (gk.enn * 2) ≤ 9490 * 2 ^ 31 := mul_le_mul K2 N2 (by positivity) (by norm_num)
    have a := hM.mulA dk dn (1 / 10 ^ 14) (by push_cast; linarith) (le_trans (by push_cast; linarith) big) (by norm_num)
      (by norm_num)
    have a := hM.mulA a d377 (1 / 10 ^ 13) (by push_cast; linarith) (le_trans (by push_cast; linarith) big) (by norm_num)
      (by norm_num)
    have a := hM.sqrtA a (1 / 10 ^ 12) (by push_cast; linarith) (by norm_num) (by norm_num)
    rwa [show ((gk.kay * 2 : ℕ) : ℝ) * (gk.enn * 2 : ℕ) * 377 = 377 * (gk.kay * 2) * (gk.enn * 2) by push_cast; ring] at a
  have m1 := hM.multA t1 (y := 2 ^ gk.sigmaEnc1) (by positivity)
  have m2 := hM.multA t2 (y := 2 ^ gk.sigmaEnc2) (by positivity)
  have m3 := hM.multA t3 (y := 2 ^ gk.sigmaEnc2 * (gk.enn * 2 : ℕ)) (mul_pos (by positivity) (by exact_mod_cast (by omega : 0 < gk.enn * 2)))
  have m4 := hM.multA t4 (y := 24 * 2 ^ gk.sigmaEnc1) (by positivity)
  have m1 := m1.mono (δ := 1 / 10 ^ 11) (by norm_num)
  have m2 := m2.mono (δ := 1 / 10 ^ 11) (by norm_num)
  have m3 := m3.mono (δ := 1 / 10 ^ 11) (by norm_num)
  have m4 := m4.mono (δ := 1 / 10 ^ 11) (by norm_num)
  obtain ⟨B_sk, hsk⟩ : ∃ B : ℤ, B = ⌈M.mul (M.dbl 2) (M.sqrt (M.dbl ((337 * (gk.kay * 2) : ℕ) : ℝ)))⌉ := ⟨_, rfl⟩
  obtain ⟨B_k, hk⟩ : ∃ B : ℤ, B = M.multDbl (M.sqrt (M.div (M.mul (M.dbl (gk.kay * 2 : ℕ)) (M.dbl 337)) (M.dbl 2)))
    (2 ^ gk.sigmaEnc1) := ⟨_, rfl⟩
  obtain ⟨B_e, he⟩ : ∃ B : ℤ, B = M.multDbl (M.sqrt (M.div (M.mul (M.dbl (gk.enn * 2 : ℕ)) (M.dbl 337)) (M.dbl 2)))
    (2 ^ gk.sigmaEnc2) := ⟨_, rfl⟩
  obtain ⟨B_d, hd⟩ : ∃ B : ℤ, B = M.multDbl (M.mul (M.sqrt (M.dbl 337)) (M.dbl 1.7))
      (2 ^ gk.sigmaEnc2 * (gk.enn * 2 : ℕ)) +
    M.multDbl (M.sqrt (M.mul (M.mul (M.dbl (gk.kay * 2 : ℕ)) (M.dbl (gk.enn * 2 : ℕ))) (M.dbl 377)))
      (24 * 2 ^ gk.sigmaEnc1) := ⟨_, rfl⟩
  obtain ⟨b, hb⟩ : ∃ b : ℤ, b = ⌈M.div (M.log2BI B_k) (M.dbl 2)⌉ - 3 := ⟨_, rfl⟩
  obtain ⟨m, hm⟩ : ∃ m : ℤ, m = ⌈M.sub (M.add (M.log2 (M.mul (M.mul (M.dbl 9.75) (M.dbl 129)) (M.sqrt (M.dbl 2600))))
      (M.log2BI B_d)) (M.dbl b)⌉ := ⟨_, rfl⟩
  obtain ⟨P, hP⟩ : ∃ P : Params Regev.P, P =
      { gk, delta, H, B_dNoise := B_d, B_sk, B_r := B_sk, B_eNoise1 := B_k, B_eNoise2 := B_e, B_kNoise := B_k
        B_smallness := M.multDbl (M.div (M.dbl 128) (M.dbl 129)) (oneShl m), smlnsBits := m.toNat
        radix := oneShl b } := ⟨_, rfl⟩
  have c1 : Close P.B_sk (2 * √(337 * (P.gk.kay * 2))) := by
    rw [hP]
    dsimp only
    rw [hsk]
    exact ceil_close_near s1.near (by norm_num)
  have c2 : Close P.B_kNoise (√(337 * (P.gk.kay * 2) / 2) * 2 ^ P.gk.sigmaEnc1) := by
    rw [hP]
    dsimp only
    rw [hk, Machine.multDbl]
    rw [show ((2 ^ gk.sigmaEnc1 : ℤ) : ℝ) * √(337 * (gk.kay * 2) / 2) =
      √(337 * (gk.kay * 2) / 2) * 2 ^ gk.sigmaEnc1 by push_cast; ring] at m1
    exact floor_close_near m1 (by norm_num)
  have c3 : Close P.B_eNoise2 (√(337 * (P.gk.enn * 2) / 2) * 2 ^ P.gk.sigmaEnc2) := by
    rw [hP]
    dsimp only
    rw [he, Machine.multDbl]
    rw [show ((2 ^ gk.sigmaEnc2 : ℤ) : ℝ) * √(337 * (gk.enn * 2) / 2) =
      √(337 * (gk.enn * 2) / 2) * 2 ^ gk.sigmaEnc2 by push_cast; ring] at m2
    exact floor_close_near m2 (by norm_num)
  have c4 : Close P.B_dNoise (1.7 * √337 * (P.gk.enn * 2) * 2 ^ P.gk.sigmaEnc2 +
      24 * √(377 * (P.gk.kay * 2) * (P.gk.enn * 2)) * 2 ^ P.gk.sigmaEnc1) := by
    rw [hP]
    dsimp only
    rw [hd, Machine.multDbl, Machine.multDbl]
    generalize M.rrMul (M.rr (2 ^ gk.sigmaEnc2 * (gk.enn * 2 : ℕ))) _ = x' at *
    generalize M.rrMul (M.rr (24 * 2 ^ gk.sigmaEnc1)) _ = y' at *
    push_cast at m3 m4
    rw [show (2 : ℝ) ^ gk.sigmaEnc2 * (gk.enn * 2) * (√(337 : ℝ) * 1.7) =
        1.7 * √337 * (gk.enn * 2) * 2 ^ gk.sigmaEnc2 by ring] at m3
    rw [show (24 : ℝ) * 2 ^ gk.sigmaEnc1 * √(377 * (gk.kay * 2) * (gk.enn * 2)) =
        24 * √(377 * (gk.kay * 2) * (gk.enn * 2)) * 2 ^ gk.sigmaEnc1 by ring] at m4
    have hbig : 2000 ≤ 1.7 * √337 * ((gk.enn : ℝ) * 2) * 2 ^ gk.sigmaEnc2 := by
      rw [hQ]
      have h1 := r337.1
      have h2 := hs.nn_lo
      have h3 : (2000 : ℝ) ≤ 2 ^ gk.sigmaEnc1 := le_trans (by norm_num) hs.S_lo
      have h4 : (1 : ℝ) ≤ Q := le_trans (by norm_num) hs.Q_lo'
      have h5 : (2000 : ℝ) * 1 ≤ 2 ^ gk.sigmaEnc1 * Q := mul_le_mul h3 h4 (by norm_num) (by positivity)
      have h6 : (1 : ℝ) * 1 ≤ 1.7 * √337 * ((gk.enn : ℝ) * 2) :=
        mul_le_mul (by linarith) (by linarith) (by norm_num) (by positivity)
      nlinarith
    have hpos : (0 : ℝ) ≤ 24 * √(377 * (gk.kay * 2) * (gk.enn * 2)) * 2 ^ gk.sigmaEnc1 := by positivity
    generalize 1.7 * √337 * ((gk.enn : ℝ) * 2) * 2 ^ gk.sigmaEnc2 = x at *
    generalize 24 * √(377 * ((gk.kay : ℝ) * 2) * (gk.enn * 2)) * 2 ^ gk.sigmaEnc1 = y at *
    unfold Close
    have h1 := Int.floor_le x'
    have h2 := Int.lt_floor_add_one x'
    have h3 := Int.floor_le y'
    have h4 := Int.lt_floor_add_one y'
    have h5 := abs_le.1 m3.2.2
    have h6 := abs_le.1 m4.2.2
    rw [abs_le]
    push_cast
    constructor <;> linarith
  have eg : P.gk = gk := by rw [hP]
  have hs' : Sizes (P.gk.kay * 2) (P.gk.enn * 2) (2 ^ P.gk.sigmaEnc1) Q := by rw [eg]; exact hs
  obtain ⟨f1, f2, f3, f4, f5, f6, f7, f8⟩ := bounds_facts0 c1 c2 c3 c4 hs' (by rw [eg]; exact hQ)
  have ek : P.B_kNoise = B_k := by rw [hP]
  have ed : P.B_dNoise = B_d := by rw [hP]
  have ee : P.B_eNoise2 = B_e := by rw [hP]
  have es : P.B_sk = B_sk := by rw [hP]
  have hdhi : P.B_dNoise ≤ 2 ^ 148 := by
    have : (P.B_dNoise : ℝ) ≤ 2 ^ 148 := by
      have h1 : ((P.gk.enn : ℝ) * 2) * 2 ^ P.gk.sigmaEnc1 * Q ≤ 2 ^ 109 * 2 ^ 33 := by
        apply mul_le_mul hs'.nS hs'.Q_hi' hs'.Q0.le (by positivity)
      linarith
    exact_mod_cast this
  obtain ⟨i1, l1, l1a, l1b⟩ := hM.log2BI_close (x := B_k) (by omega) (by omega)
  obtain ⟨i2, l2, l2a, l2b⟩ := hM.log2BI_close (x := B_d) (by omega) (by omega)
  obtain ⟨b1, b2, hbits⟩ := radixBits_close hM i1 l1 l1a l1b hb
  have hmask := mask_close hM i2 l2 l2a l2b b1 b2 hm
  refine ⟨P, b, m, ?_, eg, by rw [hP], by rw [hP], ?_⟩
  · unfold Machine.verifierBounds
    simp only
    rw [← hsk, ← hk, ← he, ← hd, ← hb, ← hm, if_neg (by omega), hP]
  · refine ⟨c1, by rw [hP], c2, by rw [hP], c3, c4, by rw [ek]; exact hbits, ?_, by rw [ed]; exact hmask,
      by rw [hP], ?_⟩
    · intro h0
      rw [hP]
      show oneShl b = _
      unfold oneShl
      rw [if_neg (by omega)]
    · intro h0
      rw [hP]
      show Close (M.multDbl (M.div (M.dbl 128) (M.dbl 129)) (oneShl m)) _
      unfold oneShl Machine.multDbl
      rw [if_neg (by omega)]
      exact smallness_close hM _

/-! ### The dimension of the keys and the sizes of the noises -/

theorem dbl_nat (hM : Ieee M) {n : ℕ} (hn : n < 2 ^ 53) : M.dbl n = n := by
  have h2 : (n : ℝ) ≤ 2 ^ 53 := by exact_mod_cast hn.le
  exact (hM.dbl n (by
    rw [abs_of_nonneg (by positivity)]
    exact h2.trans (pow_le_pow_right₀ (by norm_num) (by norm_num)))).exact (isDouble_nat hn)

theorem dbl_two (hM : Ieee M) : M.dbl 2 = 2 := by simpa using dbl_nat hM (n := 2) (by norm_num)

/-- Halving a logarithm. -/
theorem half_close (hM : Ieee M) {l L ε : ℝ} (i : IsDouble l) (hl : |l - L| ≤ ε) (h0 : |l| ≤ 2 ^ 10) :
    IsDouble (M.div l (M.dbl 2)) ∧ |M.div l (M.dbl 2) - L / 2| ≤ ε / 2 + 1 / 2 ^ 30 := by
  have i2 : IsDouble 2 := by simpa using isDouble_nat (n := 2) (by norm_num)
  have e : |l / 2| = |l| / 2 := by rw [abs_div, abs_of_pos (show (0 : ℝ) < 2 by norm_num)]
  have hb : |l / 2| ≤ 2 ^ 20 := by rw [e]; norm_num at h0 ⊢; linarith [abs_nonneg l]
  have r := hM.div l 2 i i2 (by norm_num) (hb.trans (pow_le_pow_right₀ (by norm_num) (by norm_num)))
  rw [dbl_two hM]
  refine ⟨r.1, ?_⟩
  have h1 := abs_le.1 (r.abs hb)
  have h2 := abs_le.1 hl
  rw [abs_le]
  constructor <;> linarith

theorem log2_close (hM : Ieee M) {x : ℝ} (i : IsDouble x) (h1 : 2 ≤ x) (h2 : x ≤ 2 ^ 64) :
    IsDouble (M.log2 x) ∧ |M.log2 x - Real.logb 2 x| ≤ 1 / 2 ^ 34 ∧ |M.log2 x| ≤ 2 ^ 10 ∧ 1 ≤ Real.logb 2 x ∧
      Real.logb 2 x ≤ 64 := by
  obtain ⟨a, b⟩ := hM.log2 x i h1 (h2.trans (pow_le_pow_right₀ (by norm_num) (by norm_num)))
  have l1 : Real.logb 2 x ≤ 64 := by
    rw [Real.logb_le_iff_le_rpow (by norm_num) (by linarith)]
    norm_num at h2 ⊢; exact h2
  have l0 : 1 ≤ Real.logb 2 x := by
    rw [Real.le_logb_iff_rpow_le (by norm_num) (by linarith)]
    norm_num; exact h1
  have c : |M.log2 x - Real.logb 2 x| ≤ 1 / 2 ^ 34 := b.trans (by
    rw [div_le_iff₀ (by positivity)]; norm_num; linarith)
  have c' := abs_le.1 c
  refine ⟨a, c, ?_, l0, l1⟩
  rw [abs_le]
  constructor <;> norm_num at c' ⊢ <;> linarith

theorem log_close (hM : Ieee M) {x : ℝ} (i : IsDouble x) (h1 : 2 ≤ x) (h2 : x ≤ 2 ^ 64) :
    IsDouble (M.log x) ∧ |M.log x - Real.log x| ≤ 1 / 2 ^ 34 ∧ |M.log x| ≤ 2 ^ 10 := by
  obtain ⟨a, b⟩ := hM.log x i h1 (h2.trans (pow_le_pow_right₀ (by norm_num) (by norm_num)))
  have l0 : 0 ≤ Real.log x := Real.log_nonneg (by linarith)
  have l1 : Real.log x ≤ 64 := by
    have : Real.log x ≤ Real.log ((2 : ℝ) ^ 64) := Real.log_le_log (by linarith) h2
    rw [Real.log_pow] at this
    have := Real.log_two_lt_d9
    push_cast at *
    linarith
  have c : |M.log x - Real.log x| ≤ 1 / 2 ^ 34 := b.trans (by
    rw [div_le_iff₀ (by positivity)]; norm_num; linarith)
  have c' := abs_le.1 c
  refine ⟨a, c, ?_⟩
  rw [abs_le]
  constructor <;> norm_num at c' ⊢ <;> linarith

/-- `logSqrtK` of the search loop. -/
theorem logSqrt_machine (hM : Ieee M) (kk : ℤ) (h1 : 5212 ≤ kk) (h2 : kk ≤ 9490) :
    ⌈M.div (M.log2 (M.dbl (kk : ℝ))) (M.dbl 2)⌉ = 7 := by
  obtain ⟨k, rfl⟩ := Int.eq_ofNat_of_zero_le (show 0 ≤ kk by omega)
  have r1 : (5212 : ℝ) ≤ k := by exact_mod_cast h1
  have r2 : (k : ℝ) ≤ 9490 := by exact_mod_cast h2
  rw [Int.cast_natCast, dbl_nat hM (by omega)]
  obtain ⟨i, c, c0, -⟩ := log2_close hM (x := k) (isDouble_nat (by omega)) (by linarith) (by norm_num; linarith)
  have d := abs_le.1 (half_close hM i c c0).2
  have a : 12.3 ≤ Real.logb 2 k := by
    have : (123 : ℝ) ≤ 10 * Real.logb 2 k := by
      rw [show (10 : ℝ) * Real.logb 2 k = Real.logb 2 ((k : ℝ) ^ 10) by rw [Real.logb_pow]; norm_num,
        Real.le_logb_iff_rpow_le (by norm_num) (by positivity)]
      rw [show (2 : ℝ) ^ (123 : ℝ) = 2 ^ 123 by rw [← Real.rpow_natCast]; norm_num]
      exact le_trans (by norm_num) (pow_le_pow_left₀ (by norm_num) r1 10)
    linarith
  have b : Real.logb 2 k ≤ 13.9 := by
    have : 10 * Real.logb 2 k ≤ (139 : ℝ) := by
      rw [show (10 : ℝ) * Real.logb 2 k = Real.logb 2 ((k : ℝ) ^ 10) by rw [Real.logb_pow]; norm_num,
        Real.logb_le_iff_le_rpow (by norm_num) (by positivity)]
      rw [show (2 : ℝ) ^ (139 : ℝ) = 2 ^ 139 by rw [← Real.rpow_natCast]; norm_num]
      exact (pow_le_pow_left₀ (by linarith) r2 10).trans (by norm_num)
    linarith
  rw [Int.ceil_eq_iff]
  norm_num at d ⊢
  constructor <;> linarith

theorem kk0_machine (hM : Ieee M) (s : ℤ) (h1 : 1 ≤ s) (h2 : s ≤ 200) :
    M.mul (M.dbl 37.5) (M.dbl ((252 + 2 - s : ℤ) : ℝ)) = 37.5 * ((252 + 2 - s : ℤ) : ℝ) := by
  have i1 : IsDouble 37.5 := ⟨75, -1, by norm_num, by norm_num, by norm_num, by norm_num⟩
  have i2 : IsDouble ((252 + 2 - s : ℤ) : ℝ) := isDouble_int (by rw [abs_lt]; constructor <;> omega)
  have r1 : (1 : ℝ) ≤ s := by exact_mod_cast h1
  have r2 : (s : ℝ) ≤ 200 := by exact_mod_cast h2
  have up : ∀ z : ℝ, |z| ≤ 2 ^ 20 → |z| ≤ 2 ^ 1000 := fun z hz => hz.trans (pow_le_pow_right₀ (by norm_num) (by norm_num))
  rw [(hM.dbl 37.5 (up _ (by rw [abs_of_pos] <;> norm_num))).exact i1,
    (hM.dbl _ (up _ (by push_cast; rw [abs_le]; constructor <;> norm_num <;> linarith))).exact i2]
  refine (hM.mul _ _ i1 i2 (up _ ?_)).exact ?_
  · push_cast
    rw [abs_le]
    constructor <;> norm_num <;> linarith
  · refine ⟨75 * (252 + 2 - s), -1, by rw [abs_lt]; constructor <;> omega, by norm_num, by norm_num, ?_⟩
    push_cast
    norm_num
    ring

theorem kOf_lo (sigma : ℤ) (h1 : 1 ≤ sigma) (h2 : sigma ≤ 115) : 5212 ≤ 2 * kOf sigma := by
  have a : (5212 : ℤ) ≤ ⌈(37.5 : ℝ) * ((252 + 2 - sigma : ℤ) : ℝ)⌉ := by
    rw [Int.le_ceil_iff]
    have : (139 : ℝ) ≤ ((252 + 2 - sigma : ℤ) : ℝ) := by exact_mod_cast (by omega : (139 : ℤ) ≤ 252 + 2 - sigma)
    push_cast at this ⊢
    linarith
  unfold kOf
  omega

theorem paramLoop_machine (hM : Ieee M) (L : ℤ) (hL : 1 ≤ 109 - L) (s : ℕ) (h1 : 109 - L ≤ s) (h2 : s ≤ 115) :
    M.paramLoop 2 126 L s = (109 - L, kOf (109 - L), 2 * kOf (109 - L)) := by
  induction s with
  | zero => omega
  | succ s ih =>
    unfold Machine.paramLoop
    simp only
    have hb := kOf_bounds ((s : ℤ) + 1) (by omega) (by omega)
    have hb' := kOf_lo ((s : ℤ) + 1) (by omega) (by omega)
    rw [kk0_machine hM _ (by omega) (by omega)]
    have hk : (⌈(37.5 : ℝ) * ((252 + 2 - ((s : ℤ) + 1) : ℤ) : ℝ)⌉ + ((2 : ℕ) : ℤ) - 1) / ((2 : ℕ) : ℤ) =
        kOf ((s : ℤ) + 1) := rfl
    rw [hk]
    have hl := logSqrt_machine hM (((2 : ℕ) : ℤ) * kOf ((s : ℤ) + 1)) (by push_cast; omega) (by push_cast; omega)
    rw [hl]
    by_cases hc : (126 : ℤ) ≥ (s : ℤ) + 1 + L + 10 + 7
    · rw [if_pos hc]
      have : (s : ℤ) + 1 = 109 - L := by push_cast at h1; omega
      rw [this]; norm_num
    · rw [if_neg hc]
      exact ih (by push_cast at h1; omega) (by omega)

/-- What `setParams` computes with doubles: the two numbers that it rounds up are within `2^-21` of the real ones. -/
theorem setParams_machine (hM : Ieee M) (n : ℕ) (h5 : 5 ≤ n) (hn : n < 2 ^ 30) :
    ∃ (a g : ℝ) (L K G X : ℤ), M.setParams 2 n = (K, 109 - L, 109 - L + G) ∧
      |a - (Real.logb 2 ((n * 2 : ℕ) : ℝ) + Real.log (((n * 2 - 1) / 2 : ℕ) : ℝ) / 2)| ≤ 1 / 2 ^ 21 ∧ L = ⌈a⌉ ∧
      K = kOf (109 - L) ∧ X = 124080 * (2 * K) * ((n * 2 - 1) / 2 : ℕ) ∧
      |g - Real.logb 2 (X : ℝ) / 2| ≤ 1 / 2 ^ 21 ∧ G = ⌈g⌉ ∧ 4 ≤ L ∧ L ≤ 65 ∧ 4096 < 2 * K ∧ 2 * K ≤ 9490 := by
  obtain ⟨nn, hnn⟩ : ∃ nn, nn = n * 2 := ⟨_, rfl⟩
  obtain ⟨tt, htt⟩ : ∃ tt, tt = (nn - 1) / 2 := ⟨_, rfl⟩
  have ht4 : 4 ≤ tt := by omega
  have rt : (4 : ℝ) ≤ tt := by exact_mod_cast ht4
  have rt' : (tt : ℝ) ≤ 2 ^ 31 := by exact_mod_cast (by omega : tt ≤ 2 ^ 31)
  have rn : (8 : ℝ) ≤ nn := by exact_mod_cast (by omega : 8 ≤ nn)
  have rn' : (nn : ℝ) ≤ 2 ^ 31 := by exact_mod_cast (by omega : nn ≤ 2 ^ 31)
  have e31 : (2 : ℝ) ^ 31 ≤ 2 ^ 64 := by norm_num
  obtain ⟨i1, c1, d1, l1, -⟩ := log2_close hM (x := nn) (isDouble_nat (by omega)) (by linarith) (rn'.trans e31)
  obtain ⟨i2, c2, d2⟩ := log_close hM (x := tt) (isDouble_nat (by omega)) (by linarith) (rt'.trans e31)
  obtain ⟨i3, c3⟩ := half_close hM i2 c2 d2
  have l2 : Real.logb 2 nn ≤ 31 := by
    rw [Real.logb_le_iff_le_rpow (by norm_num) (by linarith)]
    norm_num at rn' ⊢; exact rn'
  have l3 : 3 ≤ Real.logb 2 nn := by
    rw [Real.le_logb_iff_rpow_le (by norm_num) (by linarith)]
    norm_num; omega
  have k1 : Real.log tt ≤ 62 := by
    have : Real.log tt ≤ Real.log ((2 : ℝ) ^ 31) := Real.log_le_log (by linarith) rt'
    rw [Real.log_pow] at this
    have := Real.log_two_lt_d9
    push_cast at *
    linarith
  have k0 : 1 ≤ Real.log tt := by
    have : Real.log ((2 : ℝ) ^ 2) ≤ Real.log tt := Real.log_le_log (by norm_num) (by linarith)
    rw [Real.log_pow] at this
    have := Real.log_two_gt_d9
    push_cast at *
    linarith
  have c1' := abs_le.1 c1
  have c3' := abs_le.1 c3
  obtain ⟨u, hu⟩ : ∃ u, u = M.log2 nn := ⟨_, rfl⟩
  obtain ⟨v, hv⟩ : ∃ v, v = M.div (M.log tt) (M.dbl 2) := ⟨_, rfl⟩
  rw [← hu] at c1' i1
  rw [← hv] at c3' i3
  have hs : |u + v| ≤ 2 ^ 20 := by
    rw [abs_le]; constructor <;> norm_num at c1' c3' ⊢ <;> linarith
  have r := hM.add u v i1 i3 (hs.trans (pow_le_pow_right₀ (by norm_num) (by norm_num)))
  have r' := abs_le.1 (r.abs hs)
  obtain ⟨a, ha⟩ : ∃ a, a = M.add u v := ⟨_, rfl⟩
  rw [← ha] at r'
  have ax : |a - (Real.logb 2 nn + Real.log tt / 2)| ≤ 1 / 2 ^ 21 := by
    rw [abs_le]; constructor <;> norm_num at c1' c3' r' ⊢ <;> linarith
  have ax' := abs_le.1 ax
  obtain ⟨L, hL⟩ : ∃ L : ℤ, L = ⌈a⌉ := ⟨_, rfl⟩
  have hL2 : 4 ≤ L := by
    rw [hL, Int.le_ceil_iff]
    norm_num at ax' ⊢; linarith
  have hL65 : L ≤ 65 := by
    rw [hL, Int.ceil_le]
    norm_num at ax' ⊢; linarith
  obtain ⟨K, hK⟩ : ∃ K, K = kOf (109 - L) := ⟨_, rfl⟩
  have hKb := kOf_bounds (109 - L) (by omega) (by omega)
  rw [← hK] at hKb
  obtain ⟨X, hX⟩ : ∃ X : ℤ, X = 124080 * (2 * K) * tt := ⟨_, rfl⟩
  have X1 : 4 ≤ X := by
    rw [hX]
    have : (4 : ℤ) ≤ tt := by exact_mod_cast ht4
    nlinarith
  have X2 : X ≤ 2 ^ 62 := by
    rw [hX]
    have h1 : (tt : ℤ) ≤ 2 ^ 31 := by exact_mod_cast (by omega : tt ≤ 2 ^ 31)
    have h2 : 124080 * (2 * K) * (tt : ℤ) ≤ 124080 * 9490 * 2 ^ 31 :=
      mul_le_mul (by omega) h1 (by positivity) (by norm_num)
    exact h2.trans (by norm_num)
  have RX1 : (4 : ℝ) ≤ X := by exact_mod_cast X1
  have RX2 : (X : ℝ) ≤ 2 ^ 62 := by exact_mod_cast X2
  have dX := hM.dblR (x := X) (by linarith) (RX2.trans (pow_le_pow_right₀ (by norm_num) (by norm_num)))
  have y1 := dX.near.lo
  have y2 := dX.near.hi
  obtain ⟨j1, j2, j3, -⟩ := log2_close hM (x := M.dbl X) dX.isD
    (by
      have : (1 / 2 : ℝ) * X ≤ (1 - 1 / 2 ^ 50) * X := mul_le_mul_of_nonneg_right (by norm_num) (by linarith)
      linarith)
    (by
      have : (1 + 1 / 2 ^ 50) * (X : ℝ) ≤ 2 * X := mul_le_mul_of_nonneg_right (by norm_num) (by linarith)
      have h3 : (2 : ℝ) * 2 ^ 62 ≤ 2 ^ 64 := by norm_num
      linarith)
  have g1 := Real.log_two_gt_d9
  have q1 : |Real.logb 2 (M.dbl X) - Real.logb 2 X| ≤ 1 / 2 ^ 40 := by
    unfold Real.logb
    rw [← sub_div, abs_div, abs_of_pos (show 0 < Real.log 2 by linarith), div_le_iff₀ (by linarith)]
    refine (log_near dX.near (by norm_num)).trans ?_
    norm_num; linarith
  have q2 : |M.log2 (M.dbl X) - Real.logb 2 X| ≤ 1 / 2 ^ 30 := by
    have q1' := abs_le.1 q1
    have j2' := abs_le.1 j2
    rw [abs_le]; constructor <;> norm_num at q1' j2' ⊢ <;> linarith
  obtain ⟨-, q3⟩ := half_close hM j1 q2 j3
  obtain ⟨g, hg⟩ : ∃ g, g = M.div (M.log2 (M.dbl X)) (M.dbl 2) := ⟨_, rfl⟩
  rw [← hg] at q3
  have hp : M.setParams 2 n = (K, 109 - L, 109 - L + ⌈g⌉) := by
    unfold Machine.setParams
    simp only [← hnn, ← htt]
    rw [dbl_nat hM (show nn < 2 ^ 53 by omega), dbl_nat hM (show tt < 2 ^ 53 by omega), ← hu, ← hv, ← ha, ← hL]
    have hstart : (((252 * (2 - 1) : ℕ) : ℤ) / ((2 : ℕ) : ℤ)) = 126 := by norm_num
    rw [hstart, paramLoop_machine hM L (by omega) _ (by omega) (by omega)]
    simp only [← hK, ← hX, ← hg]
  subst hnn htt
  exact ⟨a, g, L, K, ⌈g⌉, X, hp, ax, hL, hK, hX, q3.trans (by norm_num), rfl, hL2, hL65, hKb.1, hKb.2⟩

theorem ceil_clear {x a : ℝ} (hx : Clear x) (h : |a - x| ≤ 1 / 2 ^ 21) : ⌈a⌉ = ⌈x⌉ := by
  have h' := abs_le.1 h
  have c1 := Int.le_ceil x
  have c2 := Int.ceil_lt_add_one x
  have d1 := hx ⌈x⌉
  have d2 := hx (⌈x⌉ - 1)
  rw [abs_of_nonpos (by linarith)] at d1
  push_cast at d2
  rw [abs_of_nonneg (by linarith)] at d2
  rw [Int.ceil_eq_iff]
  norm_num at h' d1 d2
  constructor <;> linarith

/-- **C103, the parameters.** On every machine with IEEE arithmetic `setParams` computes, for every number of parties
from 5 to `2^30`, what it would compute with real numbers, unless one of the two logarithms that it rounds up is
within `2^-20` of an integer. -/
theorem C103_params (hM : Ieee M) (n : ℕ) (h5 : 5 ≤ n) (hn : n < 2 ^ 30)
    (c1 : Clear (Real.logb 2 ((n * 2 : ℕ) : ℝ) + Real.log (((n * 2 - 1) / 2 : ℕ) : ℝ) / 2))
    (c2 : Clear (Real.logb 2 ((124080 * (2 * (setParams 2 n).1) * ((n * 2 - 1) / 2 : ℕ) : ℤ) : ℝ) / 2)) :
    M.setParams 2 n = setParams 2 n := by
  obtain ⟨a, g, L, K, G, X, e, ha, hL, hK, hX, hg, hG, b1, b2, -⟩ := setParams_machine hM n h5 hn
  rw [ceil_clear c1 ha] at hL
  have es : (setParams 2 n) = (K, 109 - L, 109 - L + ⌈Real.logb 2 (X : ℝ) / 2⌉) := by
    unfold setParams
    simp only
    have hstart : (((252 * (2 - 1) : ℕ) : ℤ) / ((2 : ℕ) : ℤ)) = 126 := by norm_num
    rw [hstart, ← hL, paramLoop_eq L (by omega) _ (by omega) (by omega)]
    simp only [← hK, ← hX]
  rw [es] at c2
  dsimp only at c2
  rw [← hX] at c2
  rw [e, es, hG, ceil_clear c2 hg]

/-- **C103, no decryption error.** On every machine with IEEE arithmetic the parameters for 5 or more parties satisfy the condition
under which decryption cannot fail (C35_no_failure), also where rounding changes them. -/
theorem C103_no_failure (hM : Ieee M) (n : ℕ) (h5 : 5 ≤ n) (hn : n < 2 ^ 30) :
    let p := M.setParams 2 n
    0 < p.1 ∧ 1 < p.2.1 ∧ 2 < p.2.2 ∧
      3 * (p.1 * 2) * 2 ^ p.2.1.toNat + 2 ^ p.2.2.toNat ≤ (2 : ℤ) ^ 125 := by
  intro p
  obtain ⟨a, g, L, K, G, X, hp, ha, hL, -, hX, hg, hG, hL2, hLhi, hKlo, hKhi⟩ := setParams_machine hM n h5 hn
  obtain ⟨nn, hnn⟩ : ∃ nn, nn = n * 2 := ⟨_, rfl⟩
  obtain ⟨tt, htt⟩ : ∃ tt, tt = (nn - 1) / 2 := ⟨_, rfl⟩
  rw [← hnn, ← htt] at hX ha
  rw [show p = _ from hp]
  simp only
  have hnn4 : (4 : ℤ) ≤ nn := by exact_mod_cast (by omega : 4 ≤ nn)
  have htt2 : 2 * (tt : ℤ) ≤ nn := by exact_mod_cast (by omega : 2 * tt ≤ nn)
  have htt4 : (4 : ℤ) ≤ tt := by exact_mod_cast (by omega : 4 ≤ tt)
  have rt : (4 : ℝ) ≤ tt := by exact_mod_cast htt4
  have rn : (4 : ℝ) ≤ nn := by exact_mod_cast hnn4
  have hX1 : 4 ≤ X := by rw [hX]; nlinarith
  have rX : (4 : ℝ) ≤ X := by exact_mod_cast hX1
  -- `nn ≤ 2^L`
  have hnnL : (nn : ℤ) ≤ 2 ^ L.toNat := by
    have k0 : 1 ≤ Real.log tt := by
      have : Real.log ((2 : ℝ) ^ 2) ≤ Real.log tt := Real.log_le_log (by norm_num) (by linarith)
      rw [Real.log_pow] at this
      have := Real.log_two_gt_d9
      push_cast at *
      linarith
    have hLlo : Real.logb 2 (nn : ℝ) ≤ L := by
      have := Int.le_ceil a
      rw [← hL] at this
      have := abs_le.1 ha
      norm_num at this
      linarith
    rw [Real.logb_le_iff_le_rpow (by norm_num) (by linarith)] at hLlo
    have : (2 : ℝ) ^ (L : ℝ) = ((2 ^ L.toNat : ℤ) : ℝ) := by
      push_cast
      exact rpow_nat_of_int (by omega)
    rw [this] at hLlo
    exact_mod_cast hLlo
  -- `2^G ≤ 2.1·√X`
  have lX : 2 ≤ Real.logb 2 X := by
    rw [Real.le_logb_iff_rpow_le (by norm_num) (by linarith)]
    norm_num; omega
  have hg' := abs_le.1 hg
  have hG0 : 0 ≤ G := by
    rw [hG]
    apply Int.ceil_nonneg
    norm_num at hg'
    linarith
  obtain ⟨Q, hQ⟩ : ∃ Q : ℤ, Q = 2 ^ G.toNat := ⟨_, rfl⟩
  have hGX : Q ^ 2 ≤ 5 * X := by
    have h : (2 * G : ℝ) ≤ Real.logb 2 (X : ℝ) + 2 + 0.01 := by
      have := Int.ceil_lt_add_one g
      rw [← hG] at this
      norm_num at hg' ⊢
      linarith
    have h2 : (2 : ℝ) ^ (0.01 : ℝ) ≤ 1.25 := by
      have : (2 : ℝ) ^ (0.01 : ℝ) ≤ 2 ^ (0.25 : ℝ) := Real.rpow_le_rpow_of_exponent_le (by norm_num) (by norm_num)
      exact two_rpow_small 4 (by norm_num) (by norm_num) (by norm_num) (by norm_num)
    have h3 : (2 : ℝ) ^ (2 * G : ℝ) ≤ 5 * X := by
      calc (2 : ℝ) ^ (2 * G : ℝ) ≤ (2 : ℝ) ^ (Real.logb 2 (X : ℝ) + 2 + 0.01) :=
            Real.rpow_le_rpow_of_exponent_le (by norm_num) h
        _ = 4 * X * 2 ^ (0.01 : ℝ) := by
            rw [Real.rpow_add (by norm_num), Real.rpow_add (by norm_num), Real.rpow_logb (by norm_num) (by norm_num) (by linarith)]
            norm_num; ring
        _ ≤ 4 * X * 1.25 := mul_le_mul_of_nonneg_left h2 (by linarith)
        _ = 5 * X := by ring
    have h4 : (2 : ℝ) ^ (2 * G : ℝ) = ((Q ^ 2 : ℤ) : ℝ) := by
      rw [hQ]
      push_cast
      rw [← rpow_nat_of_int hG0, ← Real.rpow_mul_natCast (by norm_num)]
      congr 1
      push_cast; ring
    rw [h4] at h3
    exact_mod_cast h3
  have hQ0 : 0 < Q := by rw [hQ]; positivity
  have hXb : X ≤ 124080 * 9490 * tt := by
    rw [hX]
    nlinarith
  have hmain : 3 * (K * 2) + Q ≤ 2 ^ 16 * nn := by
    by_contra hcon
    push Not at hcon
    have h5 : 58418 * (nn : ℤ) < Q := by
      have : 3 * (K * 2) ≤ 28470 := by linarith
      norm_num at hcon
      nlinarith
    nlinarith
  refine ⟨by omega, by omega, by omega, ?_⟩
  have e1 : (109 - L + G).toNat = (109 - L).toNat + G.toNat := by omega
  rw [e1, pow_add, ← hQ]
  have e2 : (2 : ℤ) ^ 125 = 2 ^ (109 - L).toNat * (2 ^ 16 * 2 ^ L.toNat) := by
    rw [← pow_add, ← pow_add]; congr 1; omega
  rw [e2]
  calc 3 * (K * 2) * 2 ^ (109 - L).toNat + 2 ^ (109 - L).toNat * Q
      = 2 ^ (109 - L).toNat * (3 * (K * 2) + Q) := by ring
    _ ≤ 2 ^ (109 - L).toNat * (2 ^ 16 * 2 ^ L.toNat) := by
        refine mul_le_mul_of_nonneg_left ?_ (by positivity)
        linarith

/-- **C103, the square roots.** `int(ceil(sqrt(n)))` with doubles is the exact value, for every `int`. -/
theorem C103_ceilSqrt (hM : Ieee M) (n : ℕ) (hn : n < 2 ^ 31) : M.ceilSqrt n = ceilSqrt n := by
  have r := hM.sqrt (M.dbl n) (by rw [dbl_nat hM (by omega)]; exact isDouble_nat (by omega))
    (by rw [dbl_nat hM (by omega)]; positivity)
  unfold Machine.ceilSqrt ceilSqrt
  rw [dbl_nat hM (by omega)] at r ⊢
  obtain ⟨s, hs⟩ : ∃ s, s = Nat.sqrt n := ⟨_, rfl⟩
  have s1 : s * s ≤ n := by rw [hs]; exact Nat.sqrt_le n
  have s2 : n < (s + 1) * (s + 1) := by rw [hs]; exact Nat.lt_succ_sqrt n
  rw [← hs]
  have s3 : s < 2 ^ 16 := by by_contra h; push Not at h; nlinarith
  split
  · rename_i h
    have e : √(n : ℝ) = s := by
      rw [← h]; push_cast; exact Real.sqrt_mul_self (by positivity)
    rw [e] at r
    rw [r.exact (isDouble_nat (by omega))]
    simp
  · rename_i h
    have h1 : s * s + 1 ≤ n := by omega
    have u : √(n : ℝ) ≤ ((s + 1 : ℕ) : ℝ) := by
      rw [Real.sqrt_le_left (by positivity)]
      exact_mod_cast (by nlinarith : n ≤ (s + 1) ^ 2)
    have r1 := r.le (isDouble_nat (by omega)) u
    have hd : IsDouble ((s * 2 ^ 20 + 1 : ℤ) * (2 : ℝ) ^ (-20 : ℤ)) := by
      refine ⟨_, _, ?_, by norm_num, by norm_num, rfl⟩
      rw [abs_of_nonneg (by positivity)]
      have : (s : ℤ) < 2 ^ 16 := by exact_mod_cast s3
      omega
    have rs : (s : ℝ) ≤ 2 ^ 16 := by exact_mod_cast s3.le
    have rh : (s : ℝ) * s + 1 ≤ n := by exact_mod_cast h1
    have l : ((s * 2 ^ 20 + 1 : ℤ) : ℝ) * (2 : ℝ) ^ (-20 : ℤ) ≤ √(n : ℝ) := by
      apply Real.le_sqrt_of_sq_le
      push_cast
      have e : (((s : ℝ) * 1048576 + 1) * 2 ^ (-20 : ℤ)) ^ 2 = s * s + s / 2 ^ 19 + 1 / 2 ^ 40 := by
        norm_num; ring
      rw [e]
      linarith
    have r2 := r.ge hd l
    have r3 : (s : ℝ) < M.sqrt n := by
      push_cast at r2
      norm_num at r2
      linarith
    rw [Int.ceil_eq_iff]
    push_cast at r1 ⊢
    constructor <;> linarith

theorem clear_of {x : ℝ} (z : ℤ) (h1 : (z : ℝ) + 1 / 1000 < x) (h2 : x < z + 1 - 1 / 1000) : Clear x := by
  intro w
  by_cases hw : w ≤ z
  · have : (w : ℝ) ≤ z := by exact_mod_cast hw
    rw [abs_of_nonneg (by linarith)]
    norm_num at h1 h2 ⊢
    linarith
  · have : (z : ℝ) + 1 ≤ w := by exact_mod_cast (by omega : z + 1 ≤ w)
    rw [abs_of_nonpos (by linarith)]
    norm_num at h1 h2 ⊢
    linarith

theorem values_of (hM : Ieee M) {n : ℕ} (h5 : 5 ≤ n) (hn : n < 2 ^ 30) (L K : ℤ) (G : ℕ) {x : ℝ} {X : ℤ}
    (hx : x = Real.logb 2 ((n * 2 : ℕ) : ℝ) + Real.log (((n * 2 - 1) / 2 : ℕ) : ℝ) / 2)
    (h1 : (L : ℝ) - 1 + 1 / 1000 < x) (h2 : x < L - 1 / 1000) (hL : 4 ≤ L) (hL' : L ≤ 65) (hK : kOf (109 - L) = K)
    (hX : X = 124080 * (2 * K) * ((n * 2 - 1) / 2 : ℕ)) (hX1 : 1 ≤ X) (h3 : (2 : ℝ) ^ (10 * G + 1) ≤ (X : ℝ) ^ 5)
    (h4 : (X : ℝ) ^ 5 ≤ 2 ^ (10 * G + 9)) :
    M.setParams 2 n = (K, 109 - L, 109 - L + (G + 1)) ∧ setParams 2 n = (K, 109 - L, 109 - L + (G + 1)) := by
  have rX : (1 : ℝ) ≤ X := by exact_mod_cast hX1
  have eL : ⌈x⌉ = L := by rw [Int.ceil_eq_iff]; constructor <;> linarith
  have c1 : Clear x := clear_of (L - 1) (by push_cast; linarith) (by push_cast; linarith)
  have e5 : (5 : ℝ) * Real.logb 2 X = Real.logb 2 ((X : ℝ) ^ 5) := by rw [Real.logb_pow]; norm_num
  have b1 : ((10 * G + 1 : ℕ) : ℝ) ≤ 5 * Real.logb 2 X := by
    rw [e5, Real.le_logb_iff_rpow_le (by norm_num) (by positivity), Real.rpow_natCast]
    exact h3
  have b2 : 5 * Real.logb 2 X ≤ ((10 * G + 9 : ℕ) : ℝ) := by
    rw [e5, Real.logb_le_iff_le_rpow (by norm_num) (by positivity), Real.rpow_natCast]
    exact h4
  push_cast at b1 b2
  have eG : ⌈Real.logb 2 (X : ℝ) / 2⌉ = G + 1 := by
    rw [Int.ceil_eq_iff]; push_cast; constructor <;> linarith
  have c2 : Clear (Real.logb 2 (X : ℝ) / 2) := clear_of G (by push_cast; linarith) (by push_cast; linarith)
  have es : (setParams 2 n) = (K, 109 - L, 109 - L + (G + 1)) := by
    unfold setParams
    simp only
    have hstart : (((252 * (2 - 1) : ℕ) : ℤ) / ((2 : ℕ) : ℤ)) = 126 := by norm_num
    rw [hstart, ← hx, eL, paramLoop_eq L (by omega) _ (by omega) (by omega)]
    simp only [hK, ← hX, eG]
  refine ⟨?_, es⟩
  rw [C103_params hM n h5 hn (by rw [← hx]; exact c1) (by rw [es]; dsimp only; rw [← hX]; exact c2), es]

/-- **C103, the library's sizes.** The parameters for 256, 512 and 1024 parties, computed with doubles on any machine with IEEE
arithmetic; they are those computed with real numbers. -/
theorem C103_values (hM : Ieee M) :
    (M.setParams 2 256 = (2944, 97, 116) ∧ setParams 2 256 = (2944, 97, 116)) ∧
    (M.setParams 2 512 = (2982, 95, 115) ∧ setParams 2 512 = (2982, 95, 115)) ∧
    (M.setParams 2 1024 = (3000, 94, 114) ∧ setParams 2 1024 = (3000, 94, 114)) := by
  have g1 := Real.log_two_gt_d9
  have g2 := Real.log_two_lt_d9
  refine ⟨?_, ?_, ?_⟩
  · have e : Real.logb 2 ((256 * 2 : ℕ) : ℝ) = 9 := by
      rw [show ((256 * 2 : ℕ) : ℝ) = 2 ^ 9 by norm_num, logb_pow2]; norm_num
    have a1 : Real.log (((256 * 2 - 1) / 2 : ℕ) : ℝ) ≤ ((8 : ℕ) : ℝ) * Real.log 2 := by
      rw [← Real.log_pow]
      exact Real.log_le_log (by norm_num) (by norm_num)
    have a2 : ((7 : ℕ) : ℝ) * Real.log 2 ≤ Real.log (((256 * 2 - 1) / 2 : ℕ) : ℝ) := by
      rw [← Real.log_pow]
      exact Real.log_le_log (by norm_num) (by norm_num)
    have hk : kOf (109 - 12) = 2944 := by
      unfold kOf
      rw [show ⌈(37.5 : ℝ) * ((252 + 2 - (109 - 12) : ℤ) : ℝ)⌉ = 5888 by rw [Int.ceil_eq_iff]; norm_num]
      norm_num
    have := values_of hM (n := 256) (by norm_num) (by norm_num) 12 2944 18 rfl
      (by rw [e]; push_cast at *; linarith) (by rw [e]; push_cast at *; linarith) (by norm_num) (by norm_num) hk rfl
      (by norm_num) (by norm_num) (by norm_num)
    norm_num at this
    exact this
  · have e : Real.logb 2 ((512 * 2 : ℕ) : ℝ) = 10 := by
      rw [show ((512 * 2 : ℕ) : ℝ) = 2 ^ 10 by norm_num, logb_pow2]; norm_num
    have a1 : Real.log (((512 * 2 - 1) / 2 : ℕ) : ℝ) ≤ ((9 : ℕ) : ℝ) * Real.log 2 := by
      rw [← Real.log_pow]
      exact Real.log_le_log (by norm_num) (by norm_num)
    have a2 : 26 * Real.log 2 ≤ 3 * Real.log (((512 * 2 - 1) / 2 : ℕ) : ℝ) := by
      rw [show (26 : ℝ) = ((26 : ℕ) : ℝ) by norm_num, ← Real.log_pow, show (3 : ℝ) = ((3 : ℕ) : ℝ) by norm_num,
        ← Real.log_pow]
      exact Real.log_le_log (by norm_num) (by norm_num)
    have hk : kOf (109 - 14) = 2982 := by
      unfold kOf
      rw [show ⌈(37.5 : ℝ) * ((252 + 2 - (109 - 14) : ℤ) : ℝ)⌉ = 5963 by rw [Int.ceil_eq_iff]; norm_num]
      norm_num
    have := values_of hM (n := 512) (by norm_num) (by norm_num) 14 2982 19 rfl
      (by rw [e]; push_cast at *; linarith) (by rw [e]; push_cast at *; linarith) (by norm_num) (by norm_num) hk rfl
      (by norm_num) (by norm_num) (by norm_num)
    norm_num at this
    exact this
  · have e : Real.logb 2 ((1024 * 2 : ℕ) : ℝ) = 11 := by
      rw [show ((1024 * 2 : ℕ) : ℝ) = 2 ^ 11 by norm_num, logb_pow2]; norm_num
    have a1 : Real.log (((1024 * 2 - 1) / 2 : ℕ) : ℝ) ≤ ((10 : ℕ) : ℝ) * Real.log 2 := by
      rw [← Real.log_pow]
      exact Real.log_le_log (by norm_num) (by norm_num)
    have a2 : ((9 : ℕ) : ℝ) * Real.log 2 ≤ Real.log (((1024 * 2 - 1) / 2 : ℕ) : ℝ) := by
      rw [← Real.log_pow]
      exact Real.log_le_log (by norm_num) (by norm_num)
    have hk : kOf (109 - 15) = 3000 := by
      unfold kOf
      rw [show ⌈(37.5 : ℝ) * ((252 + 2 - (109 - 15) : ℤ) : ℝ)⌉ = 6000 by rw [Int.ceil_eq_iff]; norm_num]
      norm_num
    have := values_of hM (n := 1024) (by norm_num) (by norm_num) 15 3000 19 rfl
      (by rw [e]; push_cast at *; linarith) (by rw [e]; push_cast at *; linarith) (by norm_num) (by norm_num) hk rfl
      (by norm_num) (by norm_num) (by norm_num)
    norm_num at this
    exact this

theorem precise_machine (hM : Ieee M) (n : ℕ) (h5 : 5 ≤ n) (hn : n < 2 ^ 30) :
    Precise (M.verifierBounds Regev.delta) n := by
  intro gk H hs
  obtain ⟨P, b, m, h1, h2, h3, h4, h5⟩ := C103_bounds hM Regev.delta gk H hs h5 hn
  exact ⟨P, h1, h2, h3, h4, b, m, h5⟩

/-- **C103, the program.** The runs of main.cpp with parameters and bounds computed with doubles: with 512 parties it ends with
an exception or leaves its arrays; with 256 or 1024 parties it succeeds or throws (C82_program, without
assuming exact arithmetic). -/
theorem C103_program {G : Type} [AddCommGroup G] [Module (ZMod Regev.P) G] (hM : Ieee M) (c : Curve G)
    (getG getH : ℕ → G)
    (ntlKernel : List (List (ZMod Regev.P)) → List (List (ZMod Regev.P)))
    (hker : ∀ G nr nc, G.length = nr → (∀ r ∈ G, r.length = nc) → GeneratesLeftKernel (ntlKernel G) G nr nc)
    (crs : ℕ → ℕ → Elt (ZMod Regev.P) 2) (C : MainCoins Regev.P) (label : Bytes)
    (rnd0 fresh : Blocks (ZMod Regev.P)) (r : ZMod Regev.P) {tests : ℕ → Tests}
    (hT : ∀ k, NoFalsePrimes (tests k).probPrime) (small : ℕ → SmallRnd Regev.P) :
    let out := fun n : ℕ => mainProve (libEnv c) getG getH ntlKernel (M.verifierBounds Regev.delta) Regev.delta
      (M.setParams 2 n).1 n (M.setParams 2 n).2.1 (M.setParams 2 n).2.2 crs 1 C ((libEnv c).newCtx label) rnd0 fresh r
      tests small
    (out 512 = .throw ∨ out 512 = .ub) ∧ ((∃ x, out 256 = .ok x) ∨ out 256 = .throw) ∧
      ((∃ x, out 1024 = .ok x) ∨ out 1024 = .throw) := by
  obtain ⟨⟨a1, a2⟩, ⟨b1, b2⟩, c1, c2⟩ := C103_values hM
  intro out
  dsimp only [out]
  rw [a1.trans a2.symm, b1.trans b2.symm, c1.trans c2.symm]
  exact ⟨C66_default_run (C82_length c) getG getH ntlKernel hker _ (precise_machine hM 512 (by norm_num) (by norm_num)) crs C
      _ rnd0 fresh r hT small,
    C66_good_run (C82_length c) getG getH ntlKernel hker _ 256 (Or.inl rfl)
      (precise_machine hM 256 (by norm_num) (by norm_num)) crs C _ rnd0 fresh r hT small,
    C66_good_run (C82_length c) getG getH ntlKernel hker _ 1024 (Or.inr rfl)
      (precise_machine hM 1024 (by norm_num) (by norm_num)) crs C _ rnd0 fresh r hT small⟩

end

/-! ### The hypotheses can be met -/

/-- There are machines with IEEE arithmetic: every operation is rounded to a nearest double. -/
theorem ieee_exists : ∃ M : Machine, Ieee M := by
  choose fl hfl using exists_rounded
  have lg : ∀ x : ℝ, 2 ≤ x → x ≤ 2 ^ 200 → 1 / 4 ≤ Real.log x ∧ Real.log x ≤ 200 := by
    intro x h1 h2
    have g1 := Real.log_two_gt_d9
    have g2 := Real.log_two_lt_d9
    have l1 := Real.log_le_log (by norm_num) h1
    have l2 := Real.log_le_log (by linarith) h2
    rw [Real.log_pow] at l2
    push_cast at l2
    constructor <;> linarith
  have up : (1000 : ℝ) ≤ 2 ^ 1000 :=
    le_trans (by norm_num) (pow_le_pow_right₀ (by norm_num : (1 : ℝ) ≤ 2) (show 10 ≤ 1000 by norm_num))
  have acc : ∀ x : ℝ, 1 / 4 ≤ x → x ≤ 1000 → |fl x - x| ≤ x / 2 ^ 40 := by
    intro x h1 h2
    refine ((hfl x).rel h1 (h2.trans up)).trans ?_
    exact div_le_div_of_nonneg_left (by linarith) (by positivity) (pow_le_pow_right₀ (by norm_num) (by norm_num))
  refine ⟨⟨fl, fun x y => fl (x + y), fun x y => fl (x - y), fun x y => fl (x * y), fun x y => fl (x / y),
    fun x => fl √x, fun x => fl (Real.log x), fun x => fl (Real.logb 2 x), fun y => y, fun x y => x * y, fun x y => x / y,
    Real.log⟩, ?_⟩
  constructor
  · exact fun x _ => hfl x
  · exact fun x y _ _ _ => hfl _
  · exact fun x y _ _ _ => hfl _
  · exact fun x y _ _ _ => hfl _
  · exact fun x y _ _ _ _ => hfl _
  · exact fun x _ _ => hfl _
  · exact fun x _ h1 h2 => ⟨(hfl _).1, acc _ (lg x h1 h2).1 ((lg x h1 h2).2.trans (by norm_num))⟩
  · intro x _ h1 h2
    obtain ⟨l1, l2⟩ := lg x h1 h2
    have g1 := Real.log_two_gt_d9
    have g2 := Real.log_two_lt_d9
    refine ⟨(hfl _).1, acc _ ?_ ?_⟩
    · unfold Real.logb
      rw [le_div_iff₀ (by linarith)]
      linarith
    · unfold Real.logb
      rw [div_le_iff₀ (by linarith)]
      linarith
  · intro y; rw [sub_self, abs_zero]; positivity
  · intro x y; rw [sub_self, abs_zero]; positivity
  · intro x y _; rw [sub_self, abs_zero]; positivity
  · intro x h1 h2
    rw [sub_self, abs_zero]
    have := (lg x h1 h2).1
    positivity

/-- The bounds for 256 parties on such a machine. -/
example : ∃ (M : Machine) (gk : GlobalKey Regev.P 2) (P : Params Regev.P) (b m : ℤ), Ieee M ∧ Standard gk 256 ∧
    M.setParams 2 256 = ((gk.kay : ℤ), (gk.sigmaEnc1 : ℤ), (gk.sigmaEnc2 : ℤ)) ∧ M.verifierBounds Regev.delta gk [] = .ok P ∧ BoundsClose P b m := by
  obtain ⟨M, hM⟩ := ieee_exists
  obtain ⟨gk, -, hg, -⟩ := standard_exists 256 (by norm_num) (by norm_num) fun _ _ => 0
  obtain ⟨P, b, m, h, -, -, -, hb⟩ := C103_bounds hM Regev.delta gk [] hg (by norm_num) (by norm_num)
  obtain ⟨⟨a1, a2⟩, -⟩ := C103_values hM
  refine ⟨M, gk, P, b, m, hM, hg, ?_, h, hb⟩
  rw [hg.kay, hg.sigma1, hg.sigma2, a1, a2]

/-- Numbers that are not squares, and that are: the square roots of 5888 and 4096. -/
example : ∃ M : Machine, Ieee M ∧ M.ceilSqrt 5888 = 77 ∧ M.ceilSqrt 4096 = 64 := by
  obtain ⟨M, hM⟩ := ieee_exists
  refine ⟨M, hM, ?_, ?_⟩
  · rw [C103_ceilSqrt hM _ (by norm_num)]; decide +kernel
  · rw [C103_ceilSqrt hM _ (by norm_num)]; decide +kernel

end Verif.Props
