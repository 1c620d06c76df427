/-
Properties C59 and C62: the scalars are a prime field and the operators of `Scalar` are its operations;
the operators of `Point` are the operations of the group, for every point and scalar.
-/
import Verif.Lemmas.Pratt
import Verif.Lemmas.Scalar
import Verif.Spec.Point
import Verif.Lemmas.Vec
import Mathlib.FieldTheory.Finite.Basic

namespace Verif.Props
open Verif Verif.Sc Verif.Spec

/-- **C59, prime order.** The order of the group is a prime number. -/
theorem C59_order_prime : order.Prime := prime_order

instance factPrime : Fact order.Prime := ⟨C59_order_prime⟩

theorem isScalar_mod (n : ℕ) : IsScalar (zzBytes 32 ((n % P : ℕ) : ℤ)) (n : ZMod order) := by
  have h := isScalar_zz ((n % P : ℕ) : ℤ) (by omega) (by exact_mod_cast Nat.mod_lt _ P_pos)
  rw [Int.cast_natCast] at h
  rwa [show ((n % P : ℕ) : ZMod order) = (n : ZMod order) from ZMod.natCast_mod n order] at h

theorem isScalar_cast {b : Bytes} {s : ZMod order} (h : IsScalar b s) : ((leVal b : ℕ) : ZMod order) = s := by
  rw [isScalar_val h, ZMod.natCast_zmod_val]

theorem isScalar_ext {b : Bytes} {s t : ZMod order} (h : IsScalar b s) (h' : IsScalar b t) : s = t := by
  rw [← isScalar_cast h, isScalar_cast h']

theorem isScalar_inj {a b : Bytes} {s : ZMod order} (h : IsScalar a s) (h' : IsScalar b s) : a = b :=
  leVal_inj _ _ (by rw [h.1, h'.1]) (by rw [isScalar_val h, isScalar_val h'])

theorem isScalar_zero : IsScalar (List.replicate 32 0) 0 :=
  ⟨by simp, by rw [← leVal_eq, leVal_replicate, ZMod.val_zero]⟩

theorem all_zero_iff {b : Bytes} {s : ZMod order} (h : IsScalar b s) : b.all (· == 0) = true ↔ s = 0 := by
  constructor
  · intro hb
    have : b = List.replicate 32 0 := by
      rw [List.eq_replicate_iff]
      refine ⟨h.1, fun x hx => ?_⟩
      have := List.all_eq_true.1 hb x hx
      simpa using this
    rw [this] at h
    exact isScalar_ext h isScalar_zero
  · rintro rfl
    rw [isScalar_inj h isScalar_zero]
    simp

/-- **C59, ring operations.** On canonical encodings `+=`, `-=`, `*=` and `negate` are the operations
modulo the group order, with canonical results; equality of scalars is equality of residues. -/
theorem C59_ring_operations (ba bb : Bytes) (a b : ZMod order) (ha : IsScalar ba a) (hb : IsScalar bb b) :
    IsScalar (addBytes ba bb) (a + b) ∧ IsScalar (subBytes ba bb) (a - b) ∧
    IsScalar (mulBytes ba bb) (a * b) ∧ IsScalar (negateBytes ba) (-a) ∧
    (eqBytes ba bb = true ↔ a = b) ∧ (isZeroBytes ba = true ↔ a = 0) := by
  have add : ∀ {ba bb : Bytes} {a b : ZMod order}, IsScalar ba a → IsScalar bb b → IsScalar (addBytes ba bb) (a + b) := by
    intro ba bb a b ha hb
    have := isScalar_mod (leVal ba + leVal bb)
    rwa [Nat.cast_add, isScalar_cast ha, isScalar_cast hb] at this
  have hneg : ∀ {ba : Bytes} {a : ZMod order}, IsScalar ba a → IsScalar (negateBytes ba) (-a) := by
    intro ba a ha
    have := isScalar_negate ba
    rwa [isScalar_cast ha] at this
  refine ⟨add ha hb, ?_, ?_, hneg ha, ?_, ?_⟩
  · rw [sub_eq_add_neg]; exact add ha (hneg hb)
  · have := isScalar_mod (leVal ba * leVal bb)
    rwa [Nat.cast_mul, isScalar_cast ha, isScalar_cast hb] at this
  · unfold eqBytes
    rw [beq_iff_eq]
    exact ⟨fun h => isScalar_ext (h ▸ ha) hb, fun h => isScalar_inj ha (h ▸ hb)⟩
  · unfold isZeroBytes eqBytes
    rw [beq_iff_eq]
    exact ⟨fun h => isScalar_ext ha (h ▸ isScalar_zero), fun h => isScalar_inj isScalar_zero (h ▸ ha)⟩

/-- **C59, division.** `invert` throws exactly on zero, and otherwise gives the inverse; `a /= b` throws
exactly for `b = 0`, and otherwise gives the quotient in the field. -/
theorem C59_division (ba bb : Bytes) (a b : ZMod order) (ha : IsScalar ba a) (hb : IsScalar bb b) :
    (b = 0 → invertBytes bb = .throw ∧ divBytes ba bb = .throw) ∧
    (b ≠ 0 → ∃ i q, invertBytes bb = .ok i ∧ IsScalar i b⁻¹ ∧ divBytes ba bb = .ok q ∧ IsScalar q (a / b)) := by
  have hall := all_zero_iff hb
  constructor
  · intro h0
    unfold divBytes invertBytes
    rw [if_pos (hall.2 h0)]
    exact ⟨rfl, rfl⟩
  · intro h0
    have hi : IsScalar (zzBytes 32 (powMod (leVal bb) (P - 2) P : ℕ)) b⁻¹ := by
      rw [powMod_eq _ _ _ (by norm_num [P, Regev.P]) (by norm_num [P, Regev.P])]
      have := isScalar_mod (leVal bb ^ (P - 2))
      rw [Nat.cast_pow, isScalar_cast hb] at this
      have e : b ^ (P - 2) = b⁻¹ := by
        have h1 := ZMod.pow_card_sub_one_eq_one h0
        have h2 : order - 1 = (P - 2) + 1 := by
          have : order = P := rfl
          have : 2 ≤ P := by norm_num [P, Regev.P]
          omega
        rw [h2, pow_succ] at h1
        exact eq_inv_of_mul_eq_one_left h1
      rwa [e] at this
    refine ⟨_, mulBytes ba (zzBytes 32 (powMod (leVal bb) (P - 2) P : ℕ)), ?_, hi, ?_, ?_⟩
    · unfold invertBytes; rw [if_neg (by rw [hall]; exact h0)]
    · unfold divBytes invertBytes
      rw [if_neg (by rw [hall]; exact h0)]
      rfl
    · rw [div_eq_mul_inv]
      exact (C59_ring_operations ba _ a _ ha hi).2.2.1

/-- **C59, inner products.** `innerProduct(a,b,n)` of canonical scalars is the canonical encoding of the
inner product of the first `n` entries. -/
theorem C59_inner_product (ba bb : List Bytes) (a b : List (ZMod order)) (n : ℕ)
    (ha : List.Forall₂ IsScalar ba a) (hb : List.Forall₂ IsScalar bb b) (hna : n ≤ a.length) (hnb : n ≤ b.length) :
    ∃ r, Sc.innerProduct ba bb n = .ok r ∧ IsScalar r (dot (a.take n) (b.take n)) := by
  have key : ∀ (n i : ℕ) (acc : Bytes) (s : ZMod order), IsScalar acc s → i + n ≤ a.length → i + n ≤ b.length →
      ∃ r, innerLoop ba bb n i acc = .ok r ∧ IsScalar r (s + dot ((a.drop i).take n) ((b.drop i).take n)) := by
    intro n
    induction n with
    | zero => intro i acc s hs _ _; exact ⟨acc, rfl, by simpa using hs⟩
    | succ n ih =>
      intro i acc s hs h1 h2
      have la := ha.length_eq
      have lb := hb.length_eq
      have ea : rd ba i = .ok ba[i] := rd_ok (by omega)
      have eb : rd bb i = .ok bb[i] := rd_ok (by omega)
      have ia : IsScalar (ba[i]'(by omega)) (a[i]'(by omega)) := (List.forall₂_iff_get.1 ha).2 i (by omega) (by omega)
      have ib : IsScalar (bb[i]'(by omega)) (b[i]'(by omega)) := (List.forall₂_iff_get.1 hb).2 i (by omega) (by omega)
      have hacc := (C59_ring_operations _ _ _ _ hs (C59_ring_operations _ _ _ _ ia ib).2.2.1).1
      obtain ⟨r, e, hr⟩ := ih (i + 1) _ _ hacc (by omega) (by omega)
      refine ⟨r, ?_, ?_⟩
      · rw [innerLoop, ea, Res.ok_bind, eb, Res.ok_bind, e]
      · rw [List.drop_eq_getElem_cons (by omega : i < a.length), List.drop_eq_getElem_cons (by omega : i < b.length),
          List.take_succ_cons, List.take_succ_cons, dot_cons, ← add_assoc]
        exact hr
  obtain ⟨r, e, hr⟩ := key n 0 _ 0 isScalar_zero (by omega) (by omega)
  exact ⟨r, e, by simpa using hr⟩

/-- `2 / 3` is the residue `x` with `3 x = 2`. -/
example : ∃ q x, divBytes (zzBytes 32 2) (zzBytes 32 3) = .ok q ∧ IsScalar q x ∧ 3 * x = 2 := by
  have h2 := isScalar_zz 2 (by norm_num) (by norm_num [P, Regev.P])
  have h3 := isScalar_zz 3 (by norm_num) (by norm_num [P, Regev.P])
  have h30 : ((3 : ℤ) : ZMod order) ≠ 0 := by
    intro h
    have := isScalar_val h3
    rw [h, ZMod.val_zero] at this
    exact absurd this (by decide +kernel)
  obtain ⟨i, q, -, -, h, hq⟩ := (C59_division _ _ _ _ h2 h3).2 h30
  refine ⟨q, _, h, hq, ?_⟩
  push_cast at h30 ⊢
  field_simp

example : ∃ r, Sc.innerProduct [zzBytes 32 2, zzBytes 32 5] [zzBytes 32 3, zzBytes 32 7] 2 = .ok r ∧ leVal r = 41 :=
  ⟨zzBytes 32 41, by decide +kernel, by decide +kernel⟩

/-! ### C62: points -/

section
variable {G : Type} [DecidableEq G] [AddCommGroup G] [Module (ZMod order) G] {S : Sodium} {enc : G → Bytes} {base : G}

omit [DecidableEq G] [AddCommGroup G] [Module (ZMod order) G] in
theorem isScalar_lt {n : Bytes} {s : ZMod order} (h : IsScalar n s) : number n < 2 ^ 255 := by
  rw [h.2]
  exact lt_trans (ZMod.val_lt s) (by unfold order; norm_num)

/-- **C62, group operations.** For all points of the main subgroup, the identity included, and all
canonical scalars, zero included, `+=`, `-=` and `*=` do not throw and give the result of the group
operation. -/
theorem C62_point_operations (h : SodiumOk S enc base) (p q : G) (n : Bytes) (s : ZMod order) (hn : IsScalar n s) :
    S.ptAdd (enc p) (enc q) = .ok (enc (p + q)) ∧ S.ptSub (enc p) (enc q) = .ok (enc (p - q)) ∧
    S.ptMul (enc p) n = .ok (enc (s • p)) := by
  refine ⟨?_, ?_, ?_⟩
  · unfold Sodium.ptAdd
    rw [h.identityPoint, h.add]
    split
    · rename_i e; rw [h.inj e, add_zero]
    · split
      · rename_i e; rw [h.inj e, zero_add]
      · rfl
  · unfold Sodium.ptSub
    rw [h.identityPoint, h.sub]
    split
    · rename_i e; rw [h.inj e, sub_zero]
    · rfl
  · unfold Sodium.ptMul
    rw [h.identityPoint, h.mul _ _ hn.1 (isScalar_lt hn)]
    have hz := (C59_ring_operations n n s s hn hn).2.2.2.2.2
    have hs : ((number n : ℕ) : ZMod order) = s := by rw [← leVal_eq]; exact isScalar_cast hn
    rw [hs]
    by_cases hp : p = 0
    · rw [if_pos (Or.inl (by rw [hp])), hp, smul_zero]
    · by_cases hs0 : s = 0
      · rw [if_pos (Or.inr (hz.2 hs0)), hs0, zero_smul]
      · rw [if_neg (by rintro (e | e); exacts [hp (h.inj e), hs0 (hz.1 e)]),
          if_pos ⟨hp, smul_ne_zero hs0 hp⟩]

/-- **C62, sums.** A sum of products of points and scalars computed with these operators is the sum in
the group: the computations with `Σ n_i·G_i` elsewhere in the model are those of the code. -/
theorem C62_multi_exp (h : SodiumOk S enc base) (ps : List G) (ns : List Bytes) (ss : List (ZMod order))
    (hn : List.Forall₂ IsScalar ns ss) (acc : G) :
    S.sumMul ns (ps.map enc) (enc acc) = .ok (enc (acc + mexp ss ps)) := by
  induction hn generalizing ps acc with
  | nil => simp [Sodium.sumMul]
  | @cons n s ns ss h1 _ ih =>
    cases ps with
    | nil => simp [Sodium.sumMul]
    | cons p ps =>
      have e1 := (C62_point_operations h p p n s h1).2.2
      have e2 := (C62_point_operations h acc (s • p) n s h1).1
      rw [List.map_cons, Sodium.sumMul, e1, Res.ok_bind, e2, Res.ok_bind, ih, mexp_cons, add_assoc]

/-- **C62, `baseTimesScalar`.** It agrees with `base * n` for every canonical scalar except zero, for
which it throws. -/
theorem C62_base_times_scalar (h : SodiumOk S enc base) (hb : base ≠ 0) (n : Bytes) (s : ZMod order)
    (hn : IsScalar n s) :
    (s ≠ 0 → S.baseTimesScalar n = S.ptMul S.basePoint n) ∧
    (s = 0 → S.baseTimesScalar n = .throw ∧ S.ptMul S.basePoint n = .ok (enc 0)) := by
  have hs : ((number n : ℕ) : ZMod order) = s := by rw [← leVal_eq]; exact isScalar_cast hn
  have e := (C62_point_operations h base base n s hn).2.2
  rw [h.basePoint, e]
  unfold Sodium.baseTimesScalar
  rw [h.mulBase _ hn.1 (isScalar_lt hn), hs]
  refine ⟨fun h0 => ?_, ?_⟩
  · rw [if_pos (smul_ne_zero h0 hb)]
  · rintro rfl
    rw [if_neg (by simp)]
    exact ⟨rfl, by rw [zero_smul]⟩

end

/-- The contract can be met: residues as "points", encoded in 32 bytes. -/
def toySodium : Sodium where
  add p q := some (addBytes p q)
  sub p q := some (subBytes p q)
  mul n p := if leVal p % P ≠ 0 ∧ leVal n * leVal p % P ≠ 0 then some (mulBytes n p) else none
  mulBase n := if leVal n % P ≠ 0 then some (zzBytes 32 (leVal n % P : ℕ)) else none
  identityPoint := zzBytes 32 0
  basePoint := zzBytes 32 1

theorem isScalar_bytes (s : ZMod order) : IsScalar (scalarBytes s 32) s := by
  have := isScalar_mod s.val
  rw [ZMod.natCast_zmod_val] at this
  rwa [Nat.mod_eq_of_lt (show s.val < P from s.val_lt)] at this

theorem cast_zero_iff (m : ℕ) : ((m : ℕ) : ZMod order) = 0 ↔ m % P = 0 := by
  rw [ZMod.natCast_eq_zero_iff]; exact Nat.dvd_iff_mod_eq_zero

theorem toySodium_ok : SodiumOk (G := ZMod order) toySodium (fun s => scalarBytes s 32) 1 where
  inj := fun s t h => isScalar_ext (isScalar_bytes s) (by rw [show scalarBytes s 32 = scalarBytes t 32 from h]; exact isScalar_bytes t)
  add p q := congrArg some (isScalar_inj (C59_ring_operations _ _ _ _ (isScalar_bytes p) (isScalar_bytes q)).1 (isScalar_bytes _))
  sub p q := congrArg some (isScalar_inj (C59_ring_operations _ _ _ _ (isScalar_bytes p) (isScalar_bytes q)).2.1 (isScalar_bytes _))
  mul n p _ _ := by
    have hp := isScalar_cast (isScalar_bytes p)
    have h1 : (p ≠ 0 ∧ ((number n : ℕ) : ZMod order) • p ≠ 0) ↔
        (leVal (scalarBytes p 32) % P ≠ 0 ∧ leVal n * leVal (scalarBytes p 32) % P ≠ 0) := by
      rw [Ne, Ne, Ne, Ne, ← cast_zero_iff, ← cast_zero_iff, Nat.cast_mul, hp, leVal_eq, smul_eq_mul]
    simp only [toySodium]
    by_cases hc : p ≠ 0 ∧ ((number n : ℕ) : ZMod order) • p ≠ 0
    · rw [if_pos hc, if_pos (h1.1 hc)]
      refine congrArg some (isScalar_inj (s := ((leVal n * leVal (scalarBytes p 32) : ℕ) : ZMod order))
        (isScalar_mod _) ?_)
      rw [Nat.cast_mul, hp, leVal_eq, smul_eq_mul]
      exact isScalar_bytes _
    · rw [if_neg hc, if_neg (fun h => hc (h1.2 h))]
  mulBase n _ _ := by
    have h1 : (((number n : ℕ) : ZMod order) • (1 : ZMod order) ≠ 0) ↔ leVal n % P ≠ 0 := by
      rw [Ne, Ne, ← cast_zero_iff, leVal_eq, smul_eq_mul, mul_one]
    simp only [toySodium]
    by_cases hc : ((number n : ℕ) : ZMod order) • (1 : ZMod order) ≠ 0
    · rw [if_pos hc, if_pos (h1.1 hc)]
      refine congrArg some (isScalar_inj (s := ((leVal n : ℕ) : ZMod order)) (isScalar_mod (leVal n)) ?_)
      rw [← leVal_eq, smul_eq_mul, mul_one]
      exact isScalar_bytes _
    · rw [if_neg hc, if_neg (fun h => hc (h1.2 h))]
  identityPoint := by
    show zzBytes 32 0 = scalarBytes 0 32
    rw [scalarBytes, ZMod.val_zero]; rfl
  basePoint := isScalar_inj (by show IsScalar (zzBytes 32 1) _; simpa using isScalar_zz 1 (by norm_num) (by norm_num [P, Regev.P])) (isScalar_bytes _)

end Verif.Props
