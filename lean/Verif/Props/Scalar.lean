/-
Properties C45, C46, C47, C48, C49: byte encodings, balanced remainder, samplers, integer
conversion, generator labels.
-/
import Verif.Lemmas.Scalar
import Mathlib.Data.Fintype.BigOperators

namespace Verif.Props
open Verif Verif.Spec Verif.Sc

/-! ### C45: byte encodings -/

/-- **C45, integers.** `bytesFromInt(n)` is 8 bytes holding `n`; reading them back with
`intFromBytes` gives `n` if and only if `n` is below `2^31` or at least `2^64 - 2^31`. -/
theorem C45_integers (n : ℕ) (hn : n < 2 ^ 64) :
    (bytesFromInt n).length = 8 ∧ number (bytesFromInt n) = n ∧
    ∃ m, intFromBytes (bytesFromInt n) = .ok m ∧ (m = n ↔ n < 2 ^ 31 ∨ 2 ^ 64 - 2 ^ 31 ≤ n) := by
  have hl : (bytesFromInt n).length = 8 := bytesLoop_length _ _
  have hv : leVal (bytesFromInt n) = n := by
    rw [bytesFromInt, bytesLoop_val]; exact Nat.mod_eq_of_lt (by omega)
  refine ⟨hl, by rw [← leVal_eq, hv], ((toInt32 n) % 2 ^ 64).toNat, ?_, ?_⟩
  · unfold intFromBytes
    rw [rdN_ok (by omega), Res.ok_bind, List.take_of_length_le (by omega)]
    have := intFromLoop_eq (bytesFromInt n) 0 0
    rw [show toInt32 0 = 0 by decide +kernel, hv] at this
    rw [this]; simp
  · unfold toInt32
    simp only
    split <;> omega

/-- The first integer that does not survive. -/
example : intFromBytes (bytesFromInt (2 ^ 31)) = .ok (2 ^ 64 - 2 ^ 31) := by decide +kernel
example : intFromBytes (bytesFromInt (2 ^ 31 - 1)) = .ok (2 ^ 31 - 1) := by decide +kernel

section
variable {q : ℕ} [NeZero q]

/-- **C45, scalars.** A scalar written to a buffer of any size for which `q ≤ 256^size` is read
back unchanged. -/
theorem C45_scalars (s : ZMod q) (size : ℕ) (hq : q ≤ 256 ^ size) :
    (scalarBytes s size).length = size ∧ number (scalarBytes s size) = s.val ∧
    scalarFromBytes (scalarBytes s size) size = .ok s := by
  have hl : (scalarBytes s size).length = size := zzBytes_length _ _
  have hv : leVal (scalarBytes s size) = s.val := by
    rw [scalarBytes, zzBytes_val, Int.natAbs_natCast]
    exact Nat.mod_eq_of_lt (s.val_lt.trans_le hq)
  refine ⟨hl, by rw [← leVal_eq, hv], ?_⟩
  unfold scalarFromBytes
  rw [rdN_ok (by omega), Res.ok_bind, List.take_of_length_le (by omega), hv, ZMod.natCast_zmod_val]

/-- **C45, the two scalar types.** `conv` between `ALGEBRA::Scalar` and `CRV25519::Scalar` is a
bijection between residues and canonical 32-byte encodings. -/
theorem C45_scalar_types (s : ZMod order) (b : Bytes) :
    (scalarBytes s 32 = b ↔ IsScalar b s) ∧ (IsScalar b s → scalarFromBytes b 32 = .ok s) := by
  have h := C45_scalars s 32 P_lt.le
  have key : IsScalar b s → scalarBytes s 32 = b := fun hb =>
    leVal_inj _ _ (by rw [h.1, hb.1]) (by rw [leVal_eq, leVal_eq, h.2.1, hb.2])
  refine ⟨⟨fun e => e ▸ ⟨h.1, h.2.1⟩, key⟩, fun hb => key hb ▸ h.2.2⟩

/-- **C45, elements.** For every buffer size, `elementBytes` fills the whole buffer, and reading it
back gives the element whose `i`-th coefficient is the part of the original one that fits: all of
it if `32(i+1) ≤ size`, the low bytes of it in between, and 0 if `size ≤ 32 i`. -/
theorem C45_elements {ell : ℕ} (e : Elt (ZMod q) ell) (size : ℕ) :
    (elementBytes e size).length = size ∧
    ∃ e' : Elt (ZMod q) ell, elementFromBytes (elementBytes e size) size = .ok e' ∧
      ∀ i, e'.c i = (((e.c i).val % 256 ^ (min 32 (size - 32 * i.val)) : ℕ) : ZMod q) := by
  rw [elementBytes_eq]
  refine ⟨elementBytesLoop_length _ _ _, ?_⟩
  obtain ⟨cs, h1, h2⟩ := elementFrom_bytes e.toList size
  have hl : e.toList.length = ell := by simp [Elt.toList]
  rw [hl] at h1
  unfold elementFromBytes
  rw [h1, Res.ok_bind]
  refine ⟨_, rfl, fun i => ?_⟩
  simp only
  rw [h2]
  have : e.toList.getD i.val 0 = e.c i := by
    rw [List.getD_eq_getElem?_getD, List.getElem?_eq_getElem (by rw [hl]; exact i.2)]
    simp [Elt.toList]
  rw [this]

/-- **C45, elements, round trip** with a full-size buffer. -/
theorem C45_elements_round_trip {ell : ℕ} (e : Elt (ZMod q) ell) (hq : q ≤ 256 ^ 32) (size : ℕ)
    (hs : 32 * ell ≤ size) : elementFromBytes (elementBytes e size) size = .ok e := by
  obtain ⟨-, e', h1, h2⟩ := C45_elements e size
  rw [h1]
  congr 1
  apply Elt.ext
  funext i
  rw [h2 i, min_eq_left (by have := i.2; omega), Nat.mod_eq_of_lt ((e.c i).val_lt.trans_le hq),
    ZMod.natCast_zmod_val]

/-- An element with a zero leading coefficient, which NTL stores with one coefficient only. -/
example : elementFromBytes (elementBytes (⟨![5, 0]⟩ : Elt (ZMod 7) 2) 64) 64 = .ok (⟨![5, 0]⟩ : Elt (ZMod 7) 2) :=
  C45_elements_round_trip _ (by norm_num) _ (by norm_num)

end

/-- **C45, big integers.** `conv(CRV25519::Scalar, BigInt)` encodes the absolute value: right for
`0 ≤ a < P`, but a negative `a` becomes `-a`. -/
theorem C45_big_integers (a : ℤ) (h : |a| < order) : IsScalar (convBig a) ((|a| : ℤ) : ZMod order) := by
  have e : convBig a = zzBytes 32 |a| := by unfold convBig zzBytes; rw [Int.natAbs_abs]
  rw [e]
  exact isScalar_zz _ (abs_nonneg _) h

example : IsScalar (convBig (-3)) 3 ∧ ¬ IsScalar (convBig (-3)) (-3) := by
  have h := C45_big_integers (-3) (by norm_num)
  refine ⟨by simpa using h, fun h' => ?_⟩
  have := (C45_scalar_types _ _).2 h
  rw [(C45_scalar_types _ _).2 h'] at this
  have := congrArg ZMod.val (Res.ok.inj this)
  revert this; decide +kernel

/-! ### C46: balanced remainder -/

theorem half_order : (P : ℤ) / 2 = (P - 1) / 2 := by norm_num [P, Regev.P]

/-- The signed number that the code gets from a scalar is its balanced representative, except for
`(P-1)/2`. -/
theorem signed_eq (s : ZMod order) (h : s.val ≠ (order - 1) / 2) :
    (if ((s.val : ℕ) : ℤ) ≥ (P : ℤ) / 2 then ((s.val : ℕ) : ℤ) - P else ((s.val : ℕ) : ℤ)) = s.valMinAbs := by
  have hlt := s.val_lt
  rw [ZMod.valMinAbs_def_pos]
  have ho : (order : ℕ) = P := rfl
  have hP : (P : ℕ) = 2 ^ 252 + 27742317777372353535851937790883648493 := rfl
  split <;> split <;> omega

/-- **C46.** For canonical `x` and `y ≠ 0`, none of them `(P-1)/2`: `x %= y` leaves the canonical
encoding of the integer `z` with `z ≡ x (mod |y|)` and `-|y|/2 < z ≤ |y|/2`, where `x` and `y` stand for
their balanced representatives. -/
theorem C46_balanced_remainder (bx by_ : Bytes) (x y : ZMod order) (hx : IsScalar bx x) (hy : IsScalar by_ y)
    (hx1 : x.val ≠ (order - 1) / 2) (hy1 : y.val ≠ (order - 1) / 2) (hy0 : y ≠ 0) :
    ∃ b z, modAssign bx by_ = .ok b ∧ IsScalar b ((z : ℤ) : ZMod order) ∧
      z ≡ x.valMinAbs [ZMOD |y.valMinAbs|] ∧ -|y.valMinAbs| < 2 * z ∧ 2 * z ≤ |y.valMinAbs| := by
  unfold modAssign
  rw [isScalar_val hx, isScalar_val hy]
  simp only
  rw [signed_eq x hx1]
  have hyv : (if ((y.val : ℕ) : ℤ) ≥ (P : ℤ) / 2 then |((y.val : ℕ) : ℤ) - P| else ((y.val : ℕ) : ℤ)) = |y.valMinAbs| := by
    rw [← signed_eq y hy1]
    split
    · rfl
    · exact (abs_of_nonneg (by omega)).symm
  rw [hyv]
  have hY0 : |y.valMinAbs| ≠ 0 := by simpa using hy0
  obtain ⟨Y, hY⟩ : ∃ Y, Y = |y.valMinAbs| := ⟨_, rfl⟩
  have hYP : Y ≤ (P : ℤ) / 2 := by
    have := ZMod.natAbs_valMinAbs_le y
    have ho : (order : ℕ) = P := rfl
    rw [hY, Int.abs_eq_natAbs]
    omega
  rw [← hY] at hY0 ⊢
  have hYpos : 0 < Y := lt_of_le_of_ne (hY ▸ abs_nonneg _) (Ne.symm hY0)
  rw [if_neg hY0]
  obtain ⟨r, hr⟩ : ∃ r, r = x.valMinAbs.fmod Y := ⟨_, rfl⟩
  have hr' : r = x.valMinAbs % Y := by rw [hr, Int.fmod_eq_emod_of_nonneg _ hYpos.le]
  have r0 : 0 ≤ r := hr' ▸ Int.emod_nonneg _ hY0
  have r1 : r < Y := hr' ▸ Int.emod_lt_of_pos _ hYpos
  have rm : r ≡ x.valMinAbs [ZMOD Y] := by rw [hr']; exact Int.mod_modEq _ _
  rw [← hr]
  have hPp : (0 : ℤ) < P := by exact_mod_cast P_pos
  by_cases hc : r > Y / 2
  · rw [if_pos hc]
    refine ⟨_, r - Y, rfl, ?_, ?_, by omega, by omega⟩
    · have := isScalar_zz (P + r - Y) (by omega) (by omega)
      have e : ((P + r - Y : ℤ) : ZMod order) = ((r - Y : ℤ) : ZMod order) := by
        push_cast
        have : ((P : ℕ) : ZMod order) = 0 := ZMod.natCast_self _
        linear_combination this
      rw [← e]; exact this
    · exact (Int.sub_modulus_modEq_iff).2 rm
  · rw [if_neg hc]
    exact ⟨_, r, rfl, isScalar_zz _ r0 (by omega), rm, by omega, by omega⟩

/-- **C46, zero modulus.** `x %= 0` throws. -/
theorem C46_zero (bx by_ : Bytes) (hy : IsScalar by_ 0) : modAssign bx by_ = .throw := by
  unfold modAssign
  rw [isScalar_val hy]
  simp only [ZMod.val_zero]
  have : ¬ (((0 : ℕ) : ℤ) ≥ (P : ℤ) / 2) := by norm_num [P, Regev.P]
  rw [if_neg this, if_pos (by norm_num)]

/-- **C46, the exceptional value.** `(P-1)/2` is even, yet `(P-1)/2 %= 2` is 1: the code takes it
for `-(P+1)/2`. -/
theorem C46_boundary : (((order - 1) / 2 : ℕ) : ZMod order).valMinAbs % 2 = 0 ∧
    modAssign (zzBytes 32 ((order - 1) / 2 : ℕ)) (zzBytes 32 2) = .ok (zzBytes 32 1) := by
  constructor
  · rw [ZMod.valMinAbs_def_pos]
    decide +kernel
  · decide +kernel

/-- An instance: `-7 %= 5` is `-2`. -/
example : ∃ b z, modAssign (zzBytes 32 (order - 7 : ℤ)) (zzBytes 32 5) = .ok b ∧ IsScalar b ((z : ℤ) : ZMod order) ∧ z = -2 := by
  refine ⟨_, -2, rfl, ?_, rfl⟩
  constructor
  · decide +kernel
  · decide +kernel

/-! ### C47: samplers -/

/-- **C47, bad sizes.** The constructor throws exactly for sizes outside `1..251`. -/
theorem C47_bounded_throws (n : ℤ) : Bounded.new n = .throw ↔ n < 1 ∨ 251 < n := by
  unfold Bounded.new
  split <;> simp_all <;> omega

/-- The value of a sample, from the random bytes and bit. -/
theorem sample_value (n : ℕ) (h1 : 1 ≤ n) (h2 : n ≤ 251) : ∃ s : Bounded, Bounded.new n = .ok s ∧
    s.nBytes = (n + 7) / 8 ∧ ∀ (rnd : Bytes) (bit : Bool), rnd.length = s.nBytes →
      IsScalar (s.sample rnd bit)
        ((if bit then -((leVal rnd % 2 ^ n : ℕ) : ℤ) else ((leVal rnd % 2 ^ n : ℕ) : ℤ) : ℤ) : ZMod order) := by
  have hnb : ((7 + (n : ℤ)) / 8).toNat = (n + 7) / 8 := by omega
  refine ⟨_, if_neg (by omega), hnb, fun rnd bit hr => ?_⟩
  rw [show (⟨((7 + (n : ℤ)) / 8).toNat, (0xff : UInt8) >>> UInt8.ofNat (((8 - (n : ℤ)) % 8).toNat)⟩ : Bounded)
    = ⟨(n + 7) / 8, (0xff : UInt8) >>> UInt8.ofNat (((8 - (n : ℤ)) % 8).toNat)⟩ by rw [hnb]] at hr ⊢
  simp only at hr
  unfold Bounded.sample
  simp only
  rw [List.take_of_length_le (by omega)]
  have hv := masked_val n h1 rnd hr _ (mask_eq n h1 h2) (32 - (n + 7) / 8)
  obtain ⟨b, hb⟩ : ∃ b, b = (rnd ++ List.replicate (32 - (n + 7) / 8) 0).set ((n + 7) / 8 - 1)
      ((rnd ++ List.replicate (32 - (n + 7) / 8) 0).getD ((n + 7) / 8 - 1) 0 &&&
        ((0xff : UInt8) >>> UInt8.ofNat (((8 - (n : ℤ)) % 8).toNat))) := ⟨_, rfl⟩
  rw [← hb] at hv ⊢
  have hbl : b.length = 32 := by
    rw [hb, List.length_set, List.length_append, List.length_replicate, hr]; omega
  cases bit
  · have hlt : leVal b < P := by
      rw [hv]
      refine (Nat.mod_lt _ (by positivity)).trans_le ((Nat.pow_le_pow_right (by norm_num) h2).trans ?_)
      norm_num [P, Regev.P]
    have := isScalar_of_val b hbl hlt
    rw [hv] at this
    rw [if_neg (by simp), if_neg (by simp), Int.cast_natCast]
    exact this
  · have := isScalar_negate b
    rw [hv] at this
    rw [if_pos rfl, if_pos rfl, Int.cast_neg, Int.cast_natCast]
    exact this

/-- **C47, range.** Every sample is the canonical encoding of an integer in `[-(2^n-1), 2^n-1]`. -/
theorem C47_bounded_range (n : ℕ) (h1 : 1 ≤ n) (h2 : n ≤ 251) : ∃ s : Bounded, Bounded.new n = .ok s ∧
    ∀ (rnd : Bytes) (bit : Bool), rnd.length = s.nBytes →
      ∃ z : ℤ, |z| ≤ 2 ^ n - 1 ∧ IsScalar (s.sample rnd bit) (z : ZMod order) := by
  obtain ⟨s, hs, -, h⟩ := sample_value n h1 h2
  refine ⟨s, hs, fun rnd bit hr => ⟨_, ?_, h rnd bit hr⟩⟩
  have hlt : ((leVal rnd % 2 ^ n : ℕ) : ℤ) ≤ 2 ^ n - 1 := by
    have : leVal rnd % 2 ^ n < 2 ^ n := Nat.mod_lt _ (by positivity)
    have : ((leVal rnd % 2 ^ n : ℕ) : ℤ) < 2 ^ n := by exact_mod_cast this
    omega
  have h0 : (0 : ℤ) ≤ ((leVal rnd % 2 ^ n : ℕ) : ℤ) := Int.natCast_nonneg _
  split
  · rw [abs_neg, abs_of_nonneg h0]; exact hlt
  · rw [abs_of_nonneg h0]; exact hlt

/-- the number of `w < d*m` with a given remainder -/
theorem card_mod (d m z : ℕ) (hz : z < d) : ((Finset.range (d * m)).filter fun w => w % d = z).card = m := by
  refine Eq.trans ?_ (Finset.card_range m)
  symm
  apply Finset.card_bij (fun j _ => z + d * j)
  · intro j hj
    rw [Finset.mem_range] at hj
    rw [Finset.mem_filter, Finset.mem_range, Nat.add_mul_mod_self_left, Nat.mod_eq_of_lt hz]
    refine ⟨?_, rfl⟩
    have : d * (j + 1) ≤ d * m := Nat.mul_le_mul_left _ hj
    rw [Nat.mul_add, Nat.mul_one] at this; omega
  · intro a _ b _ h
    exact Nat.eq_of_mul_eq_mul_left (by omega : 0 < d) (by omega)
  · intro w hw
    rw [Finset.mem_filter, Finset.mem_range] at hw
    refine ⟨w / d, ?_, ?_⟩
    · rw [Finset.mem_range]; exact Nat.div_lt_of_lt_mul hw.1
    · rw [← hw.2]; exact Nat.mod_add_div w d

/-- bytes are numbers below 256 -/
def byteEquiv : UInt8 ≃ Fin 256 where
  toFun b := ⟨b.toNat, b.toNat_lt⟩
  invFun i := UInt8.ofNat i.val
  left_inv b := by simp
  right_inv i := by ext; simp

instance : Fintype UInt8 := Fintype.ofEquiv _ byteEquiv.symm

theorem card_byte : Fintype.card UInt8 = 256 := by
  rw [Fintype.card_congr byteEquiv, Fintype.card_fin]

/-- the number of byte strings of length `k` with a given value modulo `d ∣ 256^k` -/
theorem card_bytes (k d m z : ℕ) (h : d * m = 256 ^ k) (hz : z < d) :
    (Finset.univ.filter fun f : Fin k → UInt8 => leVal (List.ofFn f) % d = z).card = m := by
  refine Eq.trans ?_ (card_mod d m z hz)
  have hlt : ∀ f : Fin k → UInt8, leVal (List.ofFn f) < 256 ^ k := by
    intro f; have := leVal_lt (List.ofFn f); rwa [List.length_ofFn] at this
  have hinj : Function.Injective fun f : Fin k → UInt8 => (⟨leVal (List.ofFn f), hlt f⟩ : Fin (256 ^ k)) := by
    intro f g hfg
    exact List.ofFn_injective (leVal_inj _ _ (by simp) (Fin.mk.inj_iff.1 hfg))
  have hbij := (Fintype.bijective_iff_injective_and_card _).2 ⟨hinj, by
    rw [Fintype.card_fin, Fintype.card_pi]
    simp [card_byte]⟩
  apply Finset.card_bij (fun f _ => leVal (List.ofFn f))
  · intro f hf
    rw [Finset.mem_filter] at hf ⊢
    rw [Finset.mem_range, h]
    exact ⟨hlt f, hf.2⟩
  · intro f _ g _ hfg
    exact List.ofFn_injective (leVal_inj _ _ (by simp) hfg)
  · intro w hw
    rw [Finset.mem_filter, Finset.mem_range, h] at hw
    obtain ⟨f, hf⟩ := hbij.2 ⟨w, hw.1⟩
    have hf : leVal (List.ofFn f) = w := congrArg Fin.val hf
    exact ⟨f, by rw [Finset.mem_filter]; exact ⟨Finset.mem_univ _, by rw [hf]; exact hw.2⟩, hf⟩

theorem cast_inj_small (n : ℕ) (h2 : n ≤ 251) (a b : ℤ) (ha : |a| ≤ 2 ^ n - 1) (hb : |b| ≤ 2 ^ n - 1)
    (h : (a : ZMod order) = (b : ZMod order)) : a = b := by
  have hp : (2 : ℤ) ^ n ≤ 2 ^ 251 := pow_le_pow_right₀ (by norm_num) h2
  have hd := (ZMod.intCast_eq_intCast_iff_dvd_sub a b order).1 h
  rw [abs_le] at ha hb
  obtain ⟨k, hk⟩ := hd
  have ho : ((order : ℕ) : ℤ) = 2 ^ 252 + 27742317777372353535851937790883648493 := by norm_num
  rw [ho] at hk
  have : k = 0 := by
    rcases lt_trichotomy k 0 with h | h | h
    · exfalso; nlinarith
    · exact h
    · exfalso; nlinarith
  rw [this] at hk; omega

/-- **C47, distribution.** Over all random byte strings and bits, every non-zero integer in
`[-(2^n-1), 2^n-1]` is sampled equally often, and zero twice as often. -/
theorem C47_bounded_distribution (n : ℕ) (h1 : 1 ≤ n) (h2 : n ≤ 251) : ∃ s : Bounded, Bounded.new n = .ok s ∧
    ∀ z : ℤ, |z| ≤ 2 ^ n - 1 →
      Set.ncard {p : (Fin s.nBytes → UInt8) × Bool |
        IsScalar (s.sample (List.ofFn p.1) p.2) (z : ZMod order)} =
          (if z = 0 then 2 else 1) * 2 ^ (8 * s.nBytes - n) := by
  obtain ⟨s, hs, hb, h⟩ := sample_value n h1 h2
  refine ⟨s, hs, fun z hz => ?_⟩
  have hk : 2 ^ n * 2 ^ (8 * s.nBytes - n) = 256 ^ s.nBytes := by
    rw [← pow_add, show (256 : ℕ) = 2 ^ 8 by norm_num, ← pow_mul]; congr 1; omega
  have key : ∀ p : (Fin s.nBytes → UInt8) × Bool, IsScalar (s.sample (List.ofFn p.1) p.2) (z : ZMod order) ↔
      (if p.2 then -((leVal (List.ofFn p.1) % 2 ^ n : ℕ) : ℤ) else ((leVal (List.ofFn p.1) % 2 ^ n : ℕ) : ℤ)) = z := by
    intro p
    have hp := h (List.ofFn p.1) p.2 (by simp)
    constructor
    · intro h'
      have e := (C45_scalar_types _ _).2 hp
      rw [(C45_scalar_types _ _).2 h'] at e
      refine (cast_inj_small n h2 _ _ hz ?_ (Res.ok.inj e)).symm
      have : leVal (List.ofFn p.1) % 2 ^ n < 2 ^ n := Nat.mod_lt _ (by positivity)
      have : ((leVal (List.ofFn p.1) % 2 ^ n : ℕ) : ℤ) < 2 ^ n := by exact_mod_cast this
      have h0 : (0 : ℤ) ≤ ((leVal (List.ofFn p.1) % 2 ^ n : ℕ) : ℤ) := by positivity
      split
      · rw [abs_neg, abs_of_nonneg h0]; omega
      · rw [abs_of_nonneg h0]; omega
    · intro e; rw [e] at hp; exact hp
  have hset : {p : (Fin s.nBytes → UInt8) × Bool | IsScalar (s.sample (List.ofFn p.1) p.2) (z : ZMod order)} =
      ((((Finset.univ.filter fun f : Fin s.nBytes → UInt8 => ((leVal (List.ofFn f) % 2 ^ n : ℕ) : ℤ) = z).image fun f => (f, false)) ∪
       ((Finset.univ.filter fun f : Fin s.nBytes → UInt8 => -((leVal (List.ofFn f) % 2 ^ n : ℕ) : ℤ) = z).image fun f => (f, true)) :
        Finset _) : Set _) := by
    ext ⟨f, b⟩
    rw [Set.mem_setOf_eq, key]
    cases b <;> simp
  rw [hset, Set.ncard_coe_finset, Finset.card_union_of_disjoint, Finset.card_image_of_injective,
    Finset.card_image_of_injective]
  · have hc : ∀ u : ℤ, |u| ≤ 2 ^ n - 1 → (Finset.univ.filter fun f : Fin s.nBytes → UInt8 =>
        ((leVal (List.ofFn f) % 2 ^ n : ℕ) : ℤ) = u).card = if 0 ≤ u then 2 ^ (8 * s.nBytes - n) else 0 := by
      intro u hu
      split
      · next h0 =>
        obtain ⟨w, rfl⟩ := Int.eq_ofNat_of_zero_le h0
        have hw : w < 2 ^ n := by
          rw [abs_of_nonneg h0] at hu
          have : (w : ℤ) < 2 ^ n := by omega
          exact_mod_cast this
        rw [← card_bytes s.nBytes (2 ^ n) _ w hk hw]
        congr 1
        ext f
        simp only [Finset.mem_filter, Finset.mem_univ, true_and]
        exact Int.natCast_inj
      · next h0 =>
        rw [Finset.card_eq_zero, Finset.filter_eq_empty_iff]
        intro f _ he
        omega
    have e2 : (Finset.univ.filter fun f : Fin s.nBytes → UInt8 => -((leVal (List.ofFn f) % 2 ^ n : ℕ) : ℤ) = z) =
        Finset.univ.filter fun f : Fin s.nBytes → UInt8 => ((leVal (List.ofFn f) % 2 ^ n : ℕ) : ℤ) = -z := by
      ext f
      simp only [Finset.mem_filter, Finset.mem_univ, true_and]
      constructor <;> intro h <;> omega
    rw [e2, hc z hz, hc (-z) (by rwa [abs_neg])]
    rcases lt_trichotomy z 0 with h | h | h
    · rw [if_neg (by omega), if_pos (by omega), if_neg (by omega)]; simp
    · rw [if_pos (by omega), if_pos (by omega), if_pos h]; ring
    · rw [if_pos (by omega), if_neg (by omega), if_neg (by omega)]; simp
  · intro a b hab; exact (Prod.mk.inj hab).1
  · intro a b hab; exact (Prod.mk.inj hab).1
  · rw [Finset.disjoint_left]
    intro p hp hq
    simp only [Finset.mem_image] at hp hq
    obtain ⟨_, _, rfl⟩ := hp
    obtain ⟨_, _, hq⟩ := hq
    simp at hq

/-- **C47, binary sampler.** On a zeroed scalar `ZeroOneScalar` gives `0, 1, 0, -1` for
`r = 0, 1, 2, 3 (mod 4)`. -/
theorem C47_zero_one (r : ℕ) : IsScalar (zeroOne r (List.replicate 32 0))
    (if r % 2 = 0 then 0 else if r / 2 % 2 = 0 then 1 else -1) := by
  unfold zeroOne
  by_cases h : r % 2 = 0
  · rw [if_neg (by simpa using h), if_pos h]
    constructor
    · simp
    · rw [← leVal_eq, leVal_replicate, ZMod.val_zero]
  · rw [if_pos h, if_neg h]
    have h1 : leVal ((List.replicate 32 (0 : UInt8)).set 0 1) = 1 := by decide +kernel
    simp only
    by_cases h2 : r / 2 % 2 = 0
    · rw [if_neg (by simpa using h2), if_pos h2]
      have := isScalar_of_val ((List.replicate 32 (0 : UInt8)).set 0 1) (by simp) (by rw [h1]; norm_num [P, Regev.P])
      rw [h1] at this; simpa using this
    · rw [if_pos h2, if_neg h2]
      have := isScalar_negate ((List.replicate 32 (0 : UInt8)).set 0 1)
      rw [h1] at this; simpa using this

/-- **C47, binary sampler on used storage.** With an even random word the old value stays, whatever
it was; so re-randomizing a scalar that holds 5 may leave 5. -/
theorem C47_zero_one_stale (r : ℕ) (hr : r % 2 = 0) (data : Bytes) : zeroOne r data = data := by
  unfold zeroOne; rw [if_neg (by simpa using hr)]

example : zeroOne 6 (zzBytes 32 5) = zzBytes 32 5 := C47_zero_one_stale 6 (by norm_num) _

/-! ### C48: integers -/

/-- **C48.** `setInteger(n)` is the canonical encoding of `n` for every `long` other than the most
negative one, for which the negation overflows. -/
theorem C48_setInteger (n : ℤ) (h1 : -2 ^ 63 ≤ n) (h2 : n < 2 ^ 63) :
    (n = -2 ^ 63 → setInteger n = .ub) ∧
    (n ≠ -2 ^ 63 → ∃ b, setInteger n = .ok b ∧ IsScalar b (n : ZMod order)) := by
  unfold setInteger
  refine ⟨fun h => if_pos h, fun h => ?_⟩
  rw [if_neg h]
  simp only
  obtain ⟨m, hm⟩ : ∃ m, m = (if n < 0 then -n else n).toNat := ⟨_, rfl⟩
  rw [← hm]
  have hm1 : m < 2 ^ 63 := by split at hm <;> omega
  have hv : leVal (bytesFromIntLoop 8 m ++ List.replicate 24 0) = m := by
    rw [leVal_append, leVal_replicate, bytesLoop_val, Nat.mul_zero, Nat.add_zero]
    exact Nat.mod_eq_of_lt (by omega)
  refine ⟨_, rfl, ?_⟩
  split
  · next hn =>
    rw [if_pos hn] at hm
    have := isScalar_negate (bytesFromIntLoop 8 m ++ List.replicate 24 0)
    rw [hv] at this
    have e : (n : ZMod order) = -((m : ℕ) : ZMod order) := by
      have : n = -(m : ℤ) := by omega
      rw [this]; push_cast; rfl
    rw [e]; exact this
  · next hn =>
    rw [if_neg hn] at hm
    have := isScalar_of_val (bytesFromIntLoop 8 m ++ List.replicate 24 0)
      (by rw [List.length_append, bytesLoop_length, List.length_replicate])
      (by rw [hv]; exact hm1.trans (by norm_num [P, Regev.P]))
    rw [hv] at this
    have e : (n : ZMod order) = ((m : ℕ) : ZMod order) := by
      have : n = (m : ℤ) := by omega
      rw [this]; push_cast; rfl
    rw [e]; exact this

example : ∃ b, setInteger (-5) = .ok b ∧ IsScalar b (-5) := by
  simpa using (C48_setInteger (-5) (by norm_num) (by norm_num)).2 (by norm_num)

/-! ### C49: generator labels -/

theorem decBytes_digits (n : ℕ) : ∀ c ∈ decBytes n, 48 ≤ c.toNat ∧ c.toNat ≤ 57 := by
  induction n using Nat.strongRecOn with
  | _ n ih =>
    rw [decBytes]
    split
    · next h =>
      intro c hc
      rw [List.mem_singleton] at hc
      rw [hc]; simp; omega
    · next h =>
      intro c hc
      rw [List.mem_append, List.mem_singleton] at hc
      rcases hc with hc | hc
      · exact ih (n / 10) (by omega) c hc
      · rw [hc]; simp; omega

theorem decBytes_ne_nil (n : ℕ) : decBytes n ≠ [] := by
  rw [decBytes]; split <;> simp

theorem decBytes_inj (m n : ℕ) (h : decBytes m = decBytes n) : m = n := by
  induction m using Nat.strongRecOn generalizing n with
  | _ m ih =>
    rw [decBytes, decBytes.eq_def n] at h
    have single : ∀ (a b : ℕ), decBytes a ++ [UInt8.ofNat b] ≠ [] := by simp
    have len1 : ∀ (a b c : ℕ), decBytes a ++ [UInt8.ofNat b] ≠ [UInt8.ofNat c] := by
      intro a b c e
      have := congrArg List.length e
      simp at this
      exact decBytes_ne_nil a this
    split at h <;> split at h
    · have := congrArg UInt8.toNat (List.cons.inj h).1
      simp at this; omega
    · exact absurd h.symm (len1 _ _ _)
    · exact absurd h (len1 _ _ _)
    · obtain ⟨h1, h2⟩ := List.append_inj' h rfl
      have h3 := congrArg UInt8.toNat (List.cons.inj h2).1
      simp at h3
      have := ih (m / 10) (by omega) _ h1
      omega

theorem intLabel_chars (i : ℕ) : ∀ c ∈ intLabel i, c ≠ 71 ∧ c ≠ 72 := by
  intro c hc
  have key : 45 ≤ c.toNat ∧ c.toNat ≤ 57 := by
    unfold intLabel at hc
    split at hc
    · have := decBytes_digits _ c hc; omega
    · rw [List.mem_cons] at hc
      rcases hc with rfl | hc
      · decide
      · have := decBytes_digits _ c hc; omega
  constructor <;> (rintro rfl; revert key; decide)

theorem intLabel_inj (i j : ℕ) (h : intLabel i = intLabel j) : i % 2 ^ 32 = j % 2 ^ 32 := by
  unfold intLabel at h
  have minus : ∀ (m : ℕ) (l : Bytes), decBytes m ≠ 45 :: l := by
    intro m l e
    have := decBytes_digits m 45 (by rw [e]; simp)
    revert this; decide
  split at h <;> split at h
  · exact decBytes_inj _ _ h
  · exact absurd h (minus _ _)
  · exact absurd h.symm (minus _ _)
  · have := decBytes_inj _ _ (List.cons.inj h).2
    omega

/-- splitting a string at its last `G`/`H` -/
theorem split_last {α : Type} (P : α → Prop) (a a' : List α) (k k' : α) (b b' : List α) (hk : P k) (hk' : P k')
    (hb : ∀ c ∈ b, ¬ P c) (hb' : ∀ c ∈ b', ¬ P c) (h : a ++ [k] ++ b = a' ++ [k'] ++ b') :
    a = a' ∧ k = k' ∧ b = b' := by
  rw [List.append_assoc, List.append_assoc] at h
  rcases List.append_eq_append_iff.1 h with ⟨t, h1, h2⟩ | ⟨t, h1, h2⟩
  · cases t with
    | nil =>
      rw [List.append_nil] at h1
      rw [List.nil_append] at h2
      simp only [List.singleton_append, List.cons.injEq] at h2
      exact ⟨h1.symm, h2.1, h2.2⟩
    | cons x t =>
      simp only [List.singleton_append, List.cons_append, List.nil_append, List.cons.injEq] at h2
      exact absurd hk' (hb k' (by rw [h2.2]; simp))
  · cases t with
    | nil =>
      rw [List.append_nil] at h1
      rw [List.nil_append] at h2
      simp only [List.singleton_append, List.cons.injEq] at h2
      exact ⟨h1, h2.1.symm, h2.2.symm⟩
    | cons x t =>
      simp only [List.singleton_append, List.cons_append, List.nil_append, List.cons.injEq] at h2
      exact absurd hk (hb' k (by rw [h2.2]; simp))

/-- **C49.** The hash input of a generator determines its context's tag, its kind (G or H) and its
index modulo `2^32`; indexes that agree modulo `2^32` share a generator. -/
theorem C49_labels (tag tag' : Bytes) (i j : ℕ) :
    (labelG tag i = labelG tag' j ↔ tag = tag' ∧ i % 2 ^ 32 = j % 2 ^ 32) ∧
    (labelH tag i = labelH tag' j ↔ tag = tag' ∧ i % 2 ^ 32 = j % 2 ^ 32) ∧
    labelG tag i ≠ labelH tag' j := by
  have fwd : ∀ (a b : UInt8), (a = 71 ∨ a = 72) → (b = 71 ∨ b = 72) →
      tag ++ [a] ++ intLabel i = tag' ++ [b] ++ intLabel j → tag = tag' ∧ a = b ∧ i % 2 ^ 32 = j % 2 ^ 32 := by
    intro a b ha hb h
    obtain ⟨h1, h2, h3⟩ := split_last (fun c => c = 71 ∨ c = 72) _ _ _ _ _ _ ha hb
      (fun c hc => by have := intLabel_chars i c hc; tauto) (fun c hc => by have := intLabel_chars j c hc; tauto) h
    exact ⟨h1, h2, intLabel_inj _ _ h3⟩
  have bwd : i % 2 ^ 32 = j % 2 ^ 32 → intLabel i = intLabel j := by
    intro h; unfold intLabel; rw [h]
  refine ⟨⟨fun h => ?_, fun h => ?_⟩, ⟨fun h => ?_, fun h => ?_⟩, fun h => ?_⟩
  · have := fwd 71 71 (by simp) (by simp) h; exact ⟨this.1, this.2.2⟩
  · unfold labelG; rw [h.1, bwd h.2]
  · have := fwd 72 72 (by simp) (by simp) h; exact ⟨this.1, this.2.2⟩
  · unfold labelH; rw [h.1, bwd h.2]
  · have := (fwd 71 72 (by simp) (by simp) h).2.1
    revert this; decide

/-- `("a", G_12)` and `("aG1", G_2)`: different labels although the texts look alike. -/
example : labelG [97] 12 ≠ labelG [97, 71, 49] 2 := by
  intro h
  have := ((C49_labels [97] [97, 71, 49] 12 2).1.1 h).1
  simp at this

end Verif.Props
