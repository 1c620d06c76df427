import Verif.Model.Scalar25519
import Verif.Spec.Scalar
import Verif.Lemmas.RegevUtils
import Mathlib.Tactic.Ring
import Mathlib.Tactic.NormNum
import Mathlib.Data.Nat.Bitwise
import Mathlib.Tactic.LinearCombination

namespace Verif.Sc
open Verif Verif.Spec

theorem leVal_eq (b : Bytes) : leVal b = number b := by
  induction b with
  | nil => rfl
  | cons x b ih =>
    unfold leVal number
    rw [List.map_cons, Nat.ofDigits_cons, ih]; rfl

theorem bytesLoop_length (k n : ℕ) : (bytesFromIntLoop k n).length = k := by
  induction k generalizing n with
  | zero => rfl
  | succ k ih => rw [bytesFromIntLoop, List.length_cons, ih]

theorem bytesLoop_val (k n : ℕ) : leVal (bytesFromIntLoop k n) = n % 256 ^ k := by
  induction k generalizing n with
  | zero => simp [bytesFromIntLoop, leVal, Nat.mod_one]
  | succ k ih =>
    rw [bytesFromIntLoop, leVal, ih, pow_succ, Nat.mul_comm (256 ^ k) 256, Nat.mod_mul]
    have : (UInt8.ofNat (n % 256)).toNat = n % 256 := by simp
    rw [this]

theorem leVal_append (a b : Bytes) : leVal (a ++ b) = leVal a + 256 ^ a.length * leVal b := by
  induction a with
  | nil => simp [leVal]
  | cons x a ih => rw [List.cons_append, leVal, ih, leVal, List.length_cons, pow_succ]; ring

theorem leVal_lt (b : Bytes) : leVal b < 256 ^ b.length := by
  induction b with
  | nil => simp [leVal]
  | cons x b ih =>
    rw [leVal, List.length_cons, pow_succ]
    have := x.toNat_lt
    omega

theorem leVal_replicate (k : ℕ) : leVal (List.replicate k 0) = 0 := by
  induction k with
  | zero => rfl
  | succ k ih => rw [List.replicate_succ, leVal, ih]; rfl

theorem leVal_inj (a b : Bytes) (hl : a.length = b.length) (h : leVal a = leVal b) : a = b := by
  induction a generalizing b with
  | nil => cases b with
    | nil => rfl
    | cons => simp at hl
  | cons x a ih =>
    cases b with
    | nil => simp at hl
    | cons y b =>
      rw [leVal, leVal] at h
      have hx := x.toNat_lt
      have hy := y.toNat_lt
      have h1 : x.toNat = y.toNat := by omega
      have h2 : leVal a = leVal b := by omega
      rw [UInt8.toNat_inj.1 h1, ih b (by simpa using hl) h2]

theorem zzBytes_length (k : ℕ) (a : ℤ) : (zzBytes k a).length = k := bytesLoop_length _ _

theorem zzBytes_val (k : ℕ) (a : ℤ) : leVal (zzBytes k a) = a.natAbs % 256 ^ k := bytesLoop_val _ _

theorem P_lt : P < 256 ^ 32 := by norm_num [P, Regev.P]
theorem P_pos : 0 < P := by norm_num [P, Regev.P]
instance : NeZero P := ⟨P_pos.ne'⟩

theorem order_eq : order = P := rfl
instance : NeZero order := ⟨P_pos.ne'⟩

theorem isScalar_zz (a : ℤ) (h0 : 0 ≤ a) (h : a < P) : IsScalar (zzBytes 32 a) (a : ZMod order) := by
  refine ⟨zzBytes_length _ _, ?_⟩
  obtain ⟨n, rfl⟩ := Int.eq_ofNat_of_zero_le h0
  have hn : n < P := by exact_mod_cast h
  rw [← leVal_eq, zzBytes_val, Int.natAbs_natCast, Int.cast_natCast, ZMod.val_natCast,
    Nat.mod_eq_of_lt (hn.trans P_lt)]
  exact (Nat.mod_eq_of_lt (order_eq ▸ hn)).symm

theorem isScalar_negate (b : Bytes) : IsScalar (negateBytes b) (-((leVal b : ℕ) : ZMod order)) := by
  unfold negateBytes
  have h := isScalar_zz (((P - leVal b % P) % P : ℕ) : ℤ) (by omega) (by
    exact_mod_cast Nat.mod_lt _ P_pos)
  have e : ((((P - leVal b % P) % P : ℕ) : ℤ) : ZMod order) = -((leVal b : ℕ) : ZMod order) := by
    rw [Int.cast_natCast]
    have h1 : (((P - leVal b % P) % P : ℕ) : ZMod order) = ((P - leVal b % P : ℕ) : ZMod order) :=
      ZMod.natCast_mod _ _
    have h2 : ((leVal b % P : ℕ) : ZMod order) = ((leVal b : ℕ) : ZMod order) := ZMod.natCast_mod _ _
    rw [h1, Nat.cast_sub (Nat.mod_lt _ P_pos).le, h2]
    have : ((P : ℕ) : ZMod order) = 0 := ZMod.natCast_self _
    rw [this, zero_sub]
  rw [← e]; exact h

theorem isScalar_val {b : Bytes} {s : ZMod order} (h : IsScalar b s) : leVal b = s.val := by
  rw [leVal_eq]; exact h.2

theorem isScalar_of_val (b : Bytes) (hl : b.length = 32) (h : leVal b < P) :
    IsScalar b ((leVal b : ℕ) : ZMod order) := by
  refine ⟨hl, ?_⟩
  rw [← leVal_eq, ZMod.val_natCast]
  exact (Nat.mod_eq_of_lt (order_eq ▸ h)).symm

/-! intFromBytes -/

theorem toInt32_mod (k : ℕ) : toInt32 k = toInt32 (k % 2 ^ 32) := by
  unfold toInt32; simp

theorem intFromLoop_eq (bs : Bytes) (i : ℕ) (m : ℕ) :
    intFromBytesLoop i (toInt32 m) bs = toInt32 (m + 256 ^ i * leVal bs) := by
  induction bs generalizing i m with
  | nil => simp [intFromBytesLoop, leVal]
  | cons b bs ih =>
    rw [intFromBytesLoop]
    have hp : (2 : ℕ) ^ (8 * i) = 256 ^ i := by rw [pow_mul]; norm_num
    have e : toInt32 (((toInt32 m + (b.toNat * 2 ^ (8 * i) : ℕ)) % 2 ^ 64).toNat)
        = toInt32 (m + b.toNat * 256 ^ i) := by
      rw [hp]
      obtain ⟨c, hc⟩ : ∃ c, c = b.toNat * 256 ^ i := ⟨_, rfl⟩
      rw [← hc]
      rw [toInt32_mod, toInt32_mod (m + c)]
      congr 1
      unfold toInt32
      simp only
      split <;> omega
    rw [e, ih, leVal]
    congr 1
    rw [pow_succ]; ring

/-! elements -/

section
variable {q : ℕ} [NeZero q]

omit [NeZero q] in
theorem elementBytesLoop_zeros (k len n : ℕ) :
    elementBytesLoop (List.replicate k (0 : ZMod q)) len n = List.replicate n 0 := by
  induction k generalizing len n with
  | zero => rfl
  | succ k ih =>
    rw [List.replicate_succ, elementBytesLoop]
    split
    · next h => rw [h]; rfl
    · simp only
      rw [ih]
      have hz : ∀ l, scalarBytes (0 : ZMod q) l = List.replicate l 0 := by
        intro l
        unfold scalarBytes
        apply leVal_inj
        · rw [zzBytes_length, List.length_replicate]
        · rw [zzBytes_val, leVal_replicate, ZMod.val_zero]; simp
      rw [hz, List.replicate_append_replicate]
      congr 1
      split <;> omega

omit [NeZero q] in
theorem elementBytesLoop_append_zeros (a : List (ZMod q)) (k len n : ℕ) :
    elementBytesLoop (a ++ List.replicate k 0) len n = elementBytesLoop a len n := by
  induction a generalizing len n with
  | nil => rw [List.nil_append, elementBytesLoop_zeros]; rfl
  | cons x a ih =>
    rw [List.cons_append, elementBytesLoop, elementBytesLoop]
    simp only [ih]

omit [NeZero q] in
theorem strip_append (v : List (ZMod q)) : ∃ k, v = strip v ++ List.replicate k 0 := by
  induction v with
  | nil => exact ⟨0, rfl⟩
  | cons x v ih =>
    obtain ⟨k, hk⟩ := ih
    have hs : strip (x :: v) = if strip v = [] ∧ x = 0 then [] else x :: strip v := rfl
    rw [hs]
    split
    · next h =>
      refine ⟨k + 1, ?_⟩
      rw [h.1, List.nil_append] at hk
      rw [hk, h.2]; rfl
    · exact ⟨k, by rw [List.cons_append, ← hk]⟩

omit [NeZero q] in
theorem elementBytes_eq {ell : ℕ} (e : Elt (ZMod q) ell) (n : ℕ) :
    elementBytes e n = elementBytesLoop e.toList 32 n := by
  obtain ⟨k, hk⟩ := strip_append e.toList
  unfold elementBytes
  conv_rhs => rw [hk, elementBytesLoop_append_zeros]

omit [NeZero q] in
theorem elementBytesLoop_length (v : List (ZMod q)) (len n : ℕ) :
    (elementBytesLoop v len n).length = n := by
  induction v generalizing len n with
  | nil => simp [elementBytesLoop]
  | cons x v ih =>
    rw [elementBytesLoop]
    split
    · next h => rw [h]; rfl
    · simp only
      rw [List.length_append, ih, scalarBytes, zzBytes_length]
      split <;> omega

omit [NeZero q] in
theorem elementFrom_bytes (v : List (ZMod q)) (n : ℕ) : ∃ cs : List (ZMod q),
    elementFromLoop v.length (elementBytesLoop v 32 n) 32 n = .ok cs ∧
    ∀ i, cs.getD i 0 = (((v.getD i 0).val % 256 ^ (min 32 (n - 32 * i)) : ℕ) : ZMod q) := by
  induction v generalizing n with
  | nil =>
    refine ⟨[], rfl, fun i => ?_⟩
    simp
  | cons x v ih =>
    rw [List.length_cons, elementFromLoop]
    by_cases hn : n = 0
    · rw [if_pos hn]
      refine ⟨[], rfl, fun i => ?_⟩
      rw [hn]; simp [Nat.mod_one]
    · rw [if_neg hn]
      simp only
      have hlen : (if 32 > n then n else 32) = min 32 n := by split <;> omega
      have hb : elementBytesLoop (x :: v) 32 n =
          scalarBytes x (min 32 n) ++ elementBytesLoop v (min 32 n) (n - min 32 n) := by
        rw [elementBytesLoop, if_neg hn]; simp only; rw [hlen]
      have hl : (scalarBytes x (min 32 n)).length = min 32 n := zzBytes_length _ _
      rw [hlen, hb]
      have hc : (scalarFromBytes (scalarBytes x (min 32 n) ++ elementBytesLoop v (min 32 n) (n - min 32 n)) (min 32 n)
          : Res (ZMod q)) = .ok ((x.val % 256 ^ (min 32 n) : ℕ) : ZMod q) := by
        unfold scalarFromBytes
        rw [rdN_ok (by rw [List.length_append, hl]; omega), Res.ok_bind, List.take_append_of_le_length (by omega),
          List.take_of_length_le (by omega), scalarBytes, zzBytes_val, Int.natAbs_natCast]
      rw [hc, Res.ok_bind]
      have hd : (scalarBytes x (min 32 n) ++ elementBytesLoop v (min 32 n) (n - min 32 n)).drop (min 32 n)
          = elementBytesLoop v (min 32 n) (n - min 32 n) := by
        exact List.drop_left' hl
      rw [hd]
      by_cases h32 : 32 ≤ n
      · rw [min_eq_left h32]
        obtain ⟨cs, h1, h2⟩ := ih (n - 32)
        rw [h1, Res.ok_bind]
        refine ⟨_, rfl, fun i => ?_⟩
        cases i with
        | zero => simp [min_eq_left h32]
        | succ i =>
          rw [List.getD_cons_succ, List.getD_cons_succ, h2]
          congr 4
          omega
      · have h0 : n - min 32 n = 0 := by omega
        rw [h0]
        have : elementFromLoop v.length (elementBytesLoop v (min 32 n) 0) (min 32 n) 0 = (.ok [] : Res (List (ZMod q))) := by
          cases v with
          | nil => rfl
          | cons y v => rw [List.length_cons, elementFromLoop, if_pos rfl]
        rw [this, Res.ok_bind]
        refine ⟨_, rfl, fun i => ?_⟩
        cases i with
        | zero => simp
        | succ i =>
          have : n - 32 * (i + 1) = 0 := by omega
          rw [this]; simp [Nat.mod_one]

end

/-! bounded samples -/

theorem mask_eq (n : ℕ) (h1 : 1 ≤ n) (h2 : n ≤ 251) :
    ((0xff : UInt8) >>> UInt8.ofNat (((8 - (n : ℤ)) % 8).toNat)).toNat = 2 ^ (n - 8 * ((n + 7) / 8 - 1)) - 1 := by
  obtain ⟨k, r, hr, hn⟩ : ∃ k r, r < 8 ∧ n = 8 * k + (r + 1) := ⟨(n - 1) / 8, (n - 1) % 8, by omega, by omega⟩
  have e1 : ((8 - (n : ℤ)) % 8).toNat = 7 - r := by omega
  have e2 : n - 8 * ((n + 7) / 8 - 1) = r + 1 := by omega
  rw [e1, e2]
  have : ∀ r < 8, ((0xff : UInt8) >>> UInt8.ofNat (7 - r)).toNat = 2 ^ (r + 1) - 1 := by decide +kernel
  exact this r hr

theorem masked_val (n : ℕ) (h1 : 1 ≤ n) (rnd : Bytes) (hr : rnd.length = (n + 7) / 8) (mask : UInt8)
    (hm : mask.toNat = 2 ^ (n - 8 * ((n + 7) / 8 - 1)) - 1) (z : ℕ) :
    leVal ((rnd ++ List.replicate z 0).set ((n + 7) / 8 - 1)
      ((rnd ++ List.replicate z 0).getD ((n + 7) / 8 - 1) 0 &&& mask)) = leVal rnd % 2 ^ n := by
  obtain ⟨k, hk⟩ : ∃ k, (n + 7) / 8 = k + 1 := ⟨(n + 7) / 8 - 1, by omega⟩
  rw [hk] at hr hm ⊢
  rw [Nat.add_sub_cancel] at hm ⊢
  obtain ⟨lo, top, rfl, hlo⟩ : ∃ lo top, rnd = lo ++ [top] ∧ lo.length = k := by
    refine ⟨rnd.take k, rnd[k]'(by omega), ?_, by rw [List.length_take]; omega⟩
    rw [List.take_append_getElem, List.take_of_length_le (by omega)]
  have hget : (lo ++ [top] ++ List.replicate z 0).getD k 0 = top := by
    rw [List.append_assoc, List.getD_append_right _ _ _ _ (by omega), hlo]; simp
  rw [hget]
  have hset : (lo ++ [top] ++ List.replicate z 0).set k (top &&& mask) =
      lo ++ [top &&& mask] ++ List.replicate z 0 := by
    rw [List.append_assoc, List.set_append, if_neg (by omega), hlo]; simp
  rw [hset, leVal_append, leVal_replicate, Nat.mul_zero, Nat.add_zero, leVal_append, leVal_append]
  simp only [leVal, Nat.mul_zero, Nat.add_zero, hlo]
  rw [UInt8.toNat_and, hm, Nat.and_two_pow_sub_one_eq_mod]
  have hp : (2 : ℕ) ^ n = 256 ^ k * 2 ^ (n - 8 * k) := by
    rw [show (256 : ℕ) = 2 ^ 8 by norm_num, ← pow_mul, ← pow_add]; congr 1; omega
  have hlt := leVal_lt lo
  rw [hlo] at hlt
  rw [hp, Nat.mod_mul, Nat.add_mul_mod_self_left, Nat.mod_eq_of_lt hlt, Nat.add_mul_div_left _ _ (by positivity),
    Nat.div_eq_of_lt hlt, Nat.zero_add]

end Verif.Sc
