/-
C77: the utilities of algebra.hpp.
C79: the static initialisation of the curve constants.
-/
import Verif.Model.AlgebraUtils
import Verif.Spec.AlgebraUtils
import Verif.Lemmas.Elt
import Verif.Model.PointInit
import Verif.Props.ScalarField
import Verif.Props.Scalar

namespace Verif.Props
open Verif Verif.Spec

/-! ### Rounding -/

/-- **C77.** `divCeil` fails for a zero divisor, and for a positive divisor is the quotient rounded up: the least integer
`r` with `x ≤ r·y`. -/
theorem C77_divCeil (x y : ℤ) :
    (y = 0 → divCeil x y = .throw) ∧
    (0 < y → ∃ r, divCeil x y = .ok r ∧ ∀ k, r ≤ k ↔ x ≤ k * y) := by
  unfold divCeil
  refine ⟨fun h => if_pos h, fun h => ⟨_, if_neg h.ne', fun k => ?_⟩⟩
  rw [Int.fdiv_eq_ediv_of_nonneg _ h.le, ← Int.lt_add_one_iff, Int.ediv_lt_iff_lt_mul h]
  constructor <;> intro hk <;> nlinarith

/-- **C77, negative divisors.** For a negative divisor the result is the rounded-up quotient (the least `r` with `x/y ≤ r`,
that is `r·y ≤ x`) iff `x` modulo `y` is at least 2; in particular never for `-1` and `-2`. -/
theorem C77_divCeil_negative (x y : ℤ) (hy : y < 0) :
    ∃ r, divCeil x y = .ok r ∧ ((∀ k, r ≤ k ↔ k * y ≤ x) ↔ 2 ≤ x % y) := by
  obtain ⟨m, rfl⟩ : ∃ m, y = -m := ⟨-y, by ring⟩
  have hm : 0 < m := by omega
  unfold divCeil
  refine ⟨_, if_neg hy.ne, ?_⟩
  have e : (x + -m - 1).fdiv (-m) = (m + 1 - x) / m := by
    rw [show x + -m - 1 = -(m + 1 - x) by ring, Int.neg_fdiv_neg, Int.fdiv_eq_ediv_of_nonneg _ hm.le]
  rw [e, Int.emod_neg]
  have hx := Int.emod_add_mul_ediv x m
  have h0 := Int.emod_nonneg x hm.ne'
  have h1 := Int.emod_lt_of_pos x hm
  obtain ⟨c, hc⟩ : ∃ c, c = x / m := ⟨_, rfl⟩
  obtain ⟨d, hd⟩ : ∃ d, d = x % m := ⟨_, rfl⟩
  rw [← hc, ← hd] at hx
  rw [← hd] at h0 h1 ⊢
  have ediv : (m + 1 - x) / m = -c + (m + 1 - d) / m := by
    rw [← hx, show m + 1 - (d + m * c) = (m + 1 - d) + m * (-c) by ring, Int.add_mul_ediv_left _ _ hm.ne']
    ring
  have hle : ∀ k : ℤ, k * -m ≤ x ↔ -c ≤ k := by
    intro k
    rw [← hx]
    constructor
    · intro h
      by_contra hk
      push Not at hk
      nlinarith
    · intro h
      nlinarith
  rw [ediv]
  constructor
  · intro h
    have := (h (-c)).2 ((hle _).2 le_rfl)
    by_contra hd2
    have : 1 ≤ (m + 1 - d) / m := by rw [Int.le_ediv_iff_mul_le hm]; omega
    omega
  · intro h k
    rw [hle]
    have : (m + 1 - d) / m = 0 := Int.ediv_eq_zero_of_lt (by omega) (by omega)
    rw [this, add_zero]

example : divCeil 7 2 = .ok 4 ∧ divCeil (-7) 2 = .ok (-3) ∧ divCeil 7 (-2) = .ok (-2) ∧ divCeil 8 (-2) = .ok (-3) :=
  ⟨rfl, rfl, rfl, rfl⟩

/-- **C77.** `log2roundUp` of a positive number is the least `l` with `n ≤ 2^l`, also for zero. -/
theorem C77_log2 (n : ℤ) (hn : 0 ≤ n) (l : ℕ) : log2roundUpBI n ≤ l ↔ n ≤ 2 ^ l := by
  unfold log2roundUpBI numBits
  by_cases h0 : n = 0
  · rw [if_pos h0, h0]
    exact ⟨fun _ => by positivity, fun _ => Nat.zero_le _⟩
  · rw [if_neg h0, Nat.size_le]
    constructor
    · intro h
      have : ((n - 1).natAbs : ℤ) < 2 ^ l := by exact_mod_cast h
      omega
    · intro h
      have : ((n - 1).natAbs : ℤ) < 2 ^ l := by omega
      exact_mod_cast this

/-- **C77, negative numbers.** For a negative number the result is not the least exponent, which is 0: it is positive. -/
theorem C77_log2_negative (n : ℤ) (hn : n < 0) : n ≤ 2 ^ 0 ∧ 0 < log2roundUpBI n := by
  refine ⟨by norm_num; omega, ?_⟩
  unfold log2roundUpBI numBits
  rw [if_neg hn.ne, Nat.size_pos]
  omega

example : log2roundUpBI 9 = 4 ∧ log2roundUpBI 8 = 3 ∧ log2roundUpBI (-1) = 2 := by decide

/-! ### Elements and vectors -/

section
variable {F : Type} {ell : ℕ}

theorem convLoop_spec (v : List F) (k : ℕ) : ∀ (i : ℕ) (e : Elt F ell), i + k ≤ v.length →
    ∃ e', convLoop v k i e = .ok e' ∧ ∀ j : Fin ell,
      (∀ h : i ≤ j.val ∧ j.val < i + k, v[j.val]? = some (e'.c j)) ∧ (¬ (i ≤ j.val ∧ j.val < i + k) → e'.c j = e.c j) := by
  induction k with
  | zero =>
    intro i e _
    exact ⟨e, rfl, fun j => ⟨fun h => by omega, fun _ => rfl⟩⟩
  | succ k ih =>
    intro i e h
    have hr : rd v i = .ok v[i] := rd_ok (by omega)
    obtain ⟨e', h1, h2⟩ := ih (i + 1) (setCoeff e i v[i]) (by omega)
    refine ⟨e', by rw [convLoop, hr, Res.ok_bind, h1], fun j => ⟨fun hj => ?_, fun hj => ?_⟩⟩
    · by_cases hji : j.val = i
      · rw [(h2 j).2 (by omega)]
        simp only [setCoeff]
        rw [if_pos hji, hji]
        exact List.getElem?_eq_getElem (by omega)
      · exact (h2 j).1 (by omega)
    · rw [(h2 j).2 (by omega)]
      simp only [setCoeff]
      rw [if_neg (by omega)]

/-- **C77.** Converting a vector of scalars to an element never reads outside the vector: coefficient `i` becomes entry
`i` where there is one (further entries are ignored) and keeps its old value where there is none. -/
theorem C77_conv_element (e : Elt F ell) (v : List F) :
    ∃ e', convElement e v = .ok e' ∧ ∀ j : Fin ell, e'.c j = (v[j.val]?).getD (e.c j) := by
  obtain ⟨e', h1, h2⟩ := convLoop_spec v (min ell v.length) 0 e (by omega)
  refine ⟨e', h1, fun j => ?_⟩
  by_cases h : j.val < v.length
  · rw [(h2 j).1 (by omega)]; rfl
  · rw [(h2 j).2 (by omega), List.getElem?_eq_none (by omega)]; rfl

/-- **C77, round trips.** From an element to its vector of coefficients and back is the identity, whatever the target held;
from a vector of the right length to an element and back too. -/
theorem C77_conv_round (e old : Elt F ell) (v : List F) (hv : v.length = ell) :
    convElement old e.toList = .ok e ∧ ∃ e', convElement old v = .ok e' ∧ e'.toList = v := by
  constructor
  · obtain ⟨e', h1, h2⟩ := C77_conv_element old e.toList
    rw [h1]
    congr 1
    apply Elt.ext
    funext j
    rw [h2, Elt.toList, List.getElem?_ofFn, dif_pos j.2]
    rfl
  · obtain ⟨e', h1, h2⟩ := C77_conv_element old v
    refine ⟨e', h1, ?_⟩
    apply List.ext_getElem
    · simp [Elt.toList, hv]
    · intro i hi hi'
      simp only [Elt.toList, List.getElem_ofFn, h2, List.getElem?_eq_getElem hi', Option.getD_some]

example : ∃ e, convElement (⟨![7, 8]⟩ : Elt ℤ 2) [5] = .ok e ∧ e.c 0 = 5 ∧ e.c 1 = 8 := ⟨_, rfl, rfl, rfl⟩

end

section
variable {F : Type} [CommRing F] {ell : ℕ}

theorem innerESLoop_spec (v1 : List (Elt F ell)) (v2 : List F) (k : ℕ) : ∀ (i : ℕ) (e : Elt F ell),
    i + k ≤ v1.length → i + k ≤ v2.length →
    ∃ e', innerESLoop v1 v2 k i e = .ok e' ∧ ∀ j, e'.c j =
      e.c j + ∑ t ∈ Finset.range k, ((v2[i + t]?).getD 0 * ((v1[i + t]?).getD 0).c j) := by
  induction k with
  | zero => intro i e _ _; exact ⟨e, rfl, fun j => by simp⟩
  | succ k ih =>
    intro i e h1 h2
    have r1 : rd v1 i = .ok v1[i] := rd_ok (by omega)
    have r2 : rd v2 i = .ok v2[i] := rd_ok (by omega)
    obtain ⟨e', g1, g2⟩ := ih (i + 1) (e + v2[i] • v1[i]) (by omega) (by omega)
    refine ⟨e', by rw [innerESLoop, r1, Res.ok_bind, r2, Res.ok_bind, g1], fun j => ?_⟩
    rw [g2, Finset.sum_range_succ', add_zero, List.getElem?_eq_getElem (by omega : i < v1.length),
      List.getElem?_eq_getElem (by omega : i < v2.length)]
    simp only [Option.getD_some]
    have : (e + v2[i] • v1[i]).c j = e.c j + v2[i] * (v1[i]).c j := rfl
    rw [this, add_assoc, add_comm (∑ _ ∈ _, _)]
    simp only [show ∀ t, i + 1 + t = i + (t + 1) from fun t => by omega]

/-- **C77.** The inner product of a vector of elements with a vector of scalars, in either order, is the sum of the products
over the shorter length, and never reads outside the vectors. -/
theorem C77_inner (v1 : List (Elt F ell)) (v2 : List F) :
    ∃ e, innerES v1 v2 = .ok e ∧ innerSE v2 v1 = .ok e ∧ ∀ j, e.c j =
      ∑ t ∈ Finset.range (min v1.length v2.length), ((v2[t]?).getD 0 * ((v1[t]?).getD 0).c j) := by
  obtain ⟨e, h1, h2⟩ := innerESLoop_spec v1 v2 (min v1.length v2.length) 0 0 (by omega) (by omega)
  refine ⟨e, h1, h1, fun j => ?_⟩
  rw [h2, show (0 : Elt F ell).c j = 0 from rfl, zero_add]
  simp only [zero_add]

example : ∃ e, innerES [(⟨![1, 2]⟩ : Elt ℤ 2), ⟨![3, 4]⟩] [10, 100, 5] = .ok e ∧ e.c 0 = 310 ∧ e.c 1 = 420 := ⟨_, rfl, rfl, rfl⟩

end

/-! ### Balanced representatives -/

theorem balanced_rep {q r : ℕ} (hr : r < q) :
    BalancedRep q r (if (r : ℤ) > (q : ℤ) / 2 then (r : ℤ) - q else r) := by
  unfold BalancedRep
  by_cases h : (r : ℤ) > (q : ℤ) / 2
  · rw [if_pos h]
    refine ⟨by omega, by omega, ?_⟩
    simp [Int.ModEq]
  · rw [if_neg h]
    exact ⟨by omega, by omega, Int.ModEq.refl _⟩

theorem enter_ok {h : Half} (hh : HalfOk h.q h.half) : h.enter = ⟨h.q, some ((h.q : ℤ) / 2)⟩ := by
  unfold Half.enter
  rcases hh with e | e <;> rw [e] <;> rfl

theorem balancedAt_ok {h : Half} (hh : HalfOk h.q h.half) (r : ℕ) :
    balancedAt h r = (⟨h.q, some ((h.q : ℤ) / 2)⟩, if (r : ℤ) > (h.q : ℤ) / 2 then (r : ℤ) - h.q else r) := by
  unfold balancedAt
  rw [enter_ok hh]
  rfl

theorem balancedVec_ok (v : List ℕ) : ∀ {h : Half}, HalfOk h.q h.half →
    HalfOk h.q (balancedVec h v).1.half ∧ (balancedVec h v).1.q = h.q ∧
    (balancedVec h v).2 = v.map fun (r : ℕ) => if (r : ℤ) > (h.q : ℤ) / 2 then (r : ℤ) - h.q else r := by
  induction v with
  | nil => intro h hh; exact ⟨hh, rfl, rfl⟩
  | cons r v ih =>
    intro h hh
    rw [balancedVec, balancedAt_ok hh]
    dsimp only
    obtain ⟨a, b, c⟩ := ih (h := ⟨h.q, some ((h.q : ℤ) / 2)⟩) (Or.inr rfl)
    exact ⟨a, b, by rw [c]; rfl⟩

theorem balancedEVec_ok {ell : ℕ} (v : List (Elt ℕ ell)) : ∀ {h : Half}, HalfOk h.q h.half →
    HalfOk h.q (balancedEVec h v).1.half ∧ (balancedEVec h v).1.q = h.q ∧
    (balancedEVec h v).2 = v.map fun e => (List.ofFn e.c).map fun (r : ℕ) =>
      if (r : ℤ) > (h.q : ℤ) / 2 then (r : ℤ) - h.q else r := by
  induction v with
  | nil => intro h hh; exact ⟨hh, rfl, rfl⟩
  | cons e v ih =>
    intro h hh
    obtain ⟨a, b, c⟩ := balancedVec_ok (List.ofFn e.c) hh
    rw [balancedEVec, balancedElt]
    dsimp only
    obtain ⟨a', b', c'⟩ := ih (h := (balancedVec h (List.ofFn e.c)).1) (by rw [b]; exact a)
    rw [b] at a' b' c'
    exact ⟨a', b', by rw [c, c']; rfl⟩

theorem balancedEMat_ok {ell : ℕ} (m : List (List (Elt ℕ ell))) : ∀ {h : Half}, HalfOk h.q h.half →
    HalfOk h.q (balancedEMat h m).1.half ∧ (balancedEMat h m).1.q = h.q ∧
    (balancedEMat h m).2 = m.map fun v => v.map fun e => (List.ofFn e.c).map fun (r : ℕ) =>
      if (r : ℤ) > (h.q : ℤ) / 2 then (r : ℤ) - h.q else r := by
  induction m with
  | nil => intro h hh; exact ⟨hh, rfl, rfl⟩
  | cons v m ih =>
    intro h hh
    obtain ⟨a, b, c⟩ := balancedEVec_ok v hh
    rw [balancedEMat]
    dsimp only
    obtain ⟨a', b', c'⟩ := ih (h := (balancedEVec h v).1) (by rw [b]; exact a)
    rw [b] at a' b' c'
    exact ⟨a', b', by rw [c, c']; rfl⟩

/-- **C77.** As long as the static variable was not set under another modulus, all overloads of `balanced` give the
representatives in `(-q/2, q/2]`, entry by entry, and leave the static variable in such a state. -/
theorem C77_balanced {ell : ℕ} {h : Half} (hh : HalfOk h.q h.half) :
    (∀ r < h.q, HalfOk h.q (balancedAt h r).1.half ∧ BalancedRep h.q r (balancedAt h r).2) ∧
    (∀ v : List ℕ, (∀ r ∈ v, r < h.q) →
      HalfOk h.q (balancedVec h v).1.half ∧ List.Forall₂ (BalancedRep h.q) v (balancedVec h v).2) ∧
    (∀ e : Elt ℕ ell, (∀ i, e.c i < h.q) →
      HalfOk h.q (balancedElt h e).1.half ∧ List.Forall₂ (BalancedRep h.q) (List.ofFn e.c) (balancedElt h e).2) ∧
    (∀ v : List (Elt ℕ ell), (∀ e ∈ v, ∀ i, e.c i < h.q) → HalfOk h.q (balancedEVec h v).1.half ∧
      List.Forall₂ (fun e x => List.Forall₂ (BalancedRep h.q) (List.ofFn e.c) x) v (balancedEVec h v).2) ∧
    (∀ m : List (List ℕ), (∀ r ∈ m, ∀ x ∈ r, x < h.q) → HalfOk h.q (balancedMat h m).1.half ∧
      List.Forall₂ (List.Forall₂ (BalancedRep h.q)) m (balancedMat h m).2) ∧
    (∀ m : List (List (Elt ℕ ell)), (∀ v ∈ m, ∀ e ∈ v, ∀ i, e.c i < h.q) → HalfOk h.q (balancedEMat h m).1.half ∧
      List.Forall₂ (List.Forall₂ (fun e x => List.Forall₂ (BalancedRep h.q) (List.ofFn e.c) x)) m
        (balancedEMat h m).2) := by
  have vec : ∀ v : List ℕ, (∀ r ∈ v, r < h.q) → List.Forall₂ (BalancedRep h.q) v
      (v.map fun (r : ℕ) => if (r : ℤ) > (h.q : ℤ) / 2 then (r : ℤ) - h.q else r) := by
    intro v hv
    rw [List.forall₂_map_right_iff, List.forall₂_same]
    exact fun r hr => balanced_rep (hv r hr)
  have elt : ∀ e : Elt ℕ ell, (∀ i, e.c i < h.q) → List.Forall₂ (BalancedRep h.q) (List.ofFn e.c)
      ((List.ofFn e.c).map fun (r : ℕ) => if (r : ℤ) > (h.q : ℤ) / 2 then (r : ℤ) - h.q else r) := by
    intro e he
    refine vec _ fun r hr => ?_
    obtain ⟨i, rfl⟩ := (List.mem_ofFn' _ _).1 hr
    exact he i
  refine ⟨fun r hr => ?_, fun v hv => ?_, fun e he => ?_, fun v hv => ?_, fun m hm => ?_, fun m hm => ?_⟩
  · rw [balancedAt_ok hh]
    exact ⟨Or.inr rfl, balanced_rep hr⟩
  · obtain ⟨a, -, c⟩ := balancedVec_ok v hh
    exact ⟨a, by rw [c]; exact vec v hv⟩
  · obtain ⟨a, -, c⟩ := balancedVec_ok (List.ofFn e.c) hh
    exact ⟨a, by rw [balancedElt, c]; exact elt e he⟩
  · obtain ⟨a, -, c⟩ := balancedEVec_ok v hh
    refine ⟨a, ?_⟩
    rw [c, List.forall₂_map_right_iff, List.forall₂_same]
    exact fun e he => elt e (hv e he)
  · unfold balancedMat
    rw [enter_ok hh]
    refine ⟨Or.inr rfl, ?_⟩
    dsimp only
    rw [List.forall₂_map_right_iff, List.forall₂_same]
    exact fun r hr => vec r (hm r hr)
  · obtain ⟨a, -, c⟩ := balancedEMat_ok m hh
    refine ⟨a, ?_⟩
    rw [c, List.forall₂_map_right_iff, List.forall₂_same]
    intro v hv
    rw [List.forall₂_map_right_iff, List.forall₂_same]
    exact fun e he => elt e (hm v hv e he)

/-- **C77, the static variable.** When the modulus has changed since the first call, to `q ≥ 3`, the result is wrong for
some scalar unless the halves of the two moduli are the same. -/
theorem C77_latched (q0 q : ℕ) (hq : 3 ≤ q) :
    (∀ r < q, BalancedRep q r (balancedAt ⟨q, some ((q0 : ℤ) / 2)⟩ r).2) ↔ q0 / 2 = q / 2 := by
  constructor
  · intro h
    by_contra hne
    rcases lt_or_gt_of_ne hne with hlt | hgt
    · have := h (q / 2) (by omega)
      unfold balancedAt Half.enter BalancedRep at this
      simp only [Option.getD_some] at this
      rw [if_pos (by push_cast; omega)] at this
      push_cast at this
      omega
    · have := h (q / 2 + 1) (by omega)
      unfold balancedAt Half.enter BalancedRep at this
      simp only [Option.getD_some] at this
      rw [if_neg (by push_cast; omega)] at this
      push_cast at this
      omega
  · intro h r hr
    have e : (q0 : ℤ) / 2 = (q : ℤ) / 2 := by omega
    rw [e, balancedAt_ok (h := ⟨q, some ((q : ℤ) / 2)⟩) (Or.inr rfl)]
    exact balanced_rep hr

example : HalfOk 7 none ∧ (balancedVec ⟨7, none⟩ [0, 3, 4, 6]).2 = [0, 3, -3, -1] := ⟨Or.inl rfl, by decide⟩

end Verif.Props

namespace Verif.Props
open Verif Verif.Sc Verif.Spec

/-! ### C79 -/

section
variable {G : Type} [DecidableEq G] [AddCommGroup G] [Module (ZMod order) G] {S : Sodium} {enc : G → Bytes} {base : G}

/-- **C79.** If the library functions are correct and `sodium_init` was not called before, the static initialisation does
not throw and leaves the encodings of the group's identity and base point in the constants. -/
theorem C79_init (h : SodiumOk { S with identityPoint := enc 0, basePoint := enc base } enc base) (hb : base ≠ 0)
    (hz : enc base ≠ List.replicate 32 0) :
    ∃ st, staticInit S 0 = .ok st ∧ st.identityPoint = enc 0 ∧ st.basePoint = enc base ∧ st.point = enc 0 ∧
      ∀ rc, pointInit S rc st = .ok (enc 0, st) := by
  obtain ⟨b, e1, e2⟩ := (C48_setInteger 1 (by norm_num) (by norm_num)).2 (by norm_num)
  have hs : ((number b : ℕ) : ZMod order) = 1 := by
    rw [← leVal_eq]
    have := isScalar_cast e2
    simpa using this
  have hmul : S.mulBase b = some (enc base) := by
    have := h.mulBase b e2.1 (isScalar_lt e2)
    dsimp only at this
    rw [this, hs, one_smul, if_pos hb]
  have hsub : S.sub (enc base) (enc base) = some (enc 0) := by
    have := h.sub base base
    dsimp only at this
    rw [this, sub_self]
  refine ⟨⟨enc 0, enc base, false⟩, ?_, rfl, rfl, rfl, fun rc => rfl⟩
  unfold staticInit pointInit PointStatics.zero PointStatics.point
  simp only [Bool.not_true, Bool.false_eq_true, if_false, ne_eq, not_true_eq_false]
  rw [e1, Res.ok_bind, hmul]
  dsimp only
  unfold Sodium.ptSub
  dsimp only
  rw [if_neg hz, hsub]
  rfl

/-- **C79.** If `sodium_init` returns anything but 0, which it also does (with 1) when the library has been initialised
before, the initialisation of the program throws. -/
theorem C79_already (S : Sodium) (rc : ℤ) (h : rc ≠ 0) : staticInit S rc = .throw := by
  unfold staticInit pointInit PointStatics.zero
  simp only [Bool.not_true, Bool.false_eq_true, if_false]
  rw [if_pos h, Res.throw_bind]

theorem with_constants (h : SodiumOk S enc base) : { S with identityPoint := enc 0, basePoint := enc base } = S := by
  have h1 := h.identityPoint
  have h2 := h.basePoint
  cases S
  dsimp only at h1 h2
  rw [h1, h2]

/-- The hypotheses of `C79_init` are met by a toy curve, the scalars themselves. -/
example : ∃ (S : Sodium) (enc : ZMod order → Bytes),
    SodiumOk { S with identityPoint := enc 0, basePoint := enc 1 } enc 1 ∧ (1 : ZMod order) ≠ 0 ∧
      enc 1 ≠ List.replicate 32 0 := by
  refine ⟨toySodium, fun s => scalarBytes s 32, ?_, one_ne_zero, fun h => ?_⟩
  · have h := toySodium_ok
    have e := with_constants h
    rw [e]
    exact h
  · have h1 := isScalar_cast (isScalar_bytes (1 : ZMod order))
    dsimp only at h
    rw [h, show leVal (List.replicate 32 0) = 0 by decide, Nat.cast_zero] at h1
    exact zero_ne_one h1

end

end Verif.Props
