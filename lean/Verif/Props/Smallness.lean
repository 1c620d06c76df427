/-
C68: how much the smallness test shows.
-/
import Verif.Lemmas.Smallness
import Verif.Props.Bounds

namespace Verif.Props
open Spec Regev
open scoped BigOperators

section
variable {q : ℕ} [Fact q.Prime]

/-- Flips in row `i` add a multiple of `x_i` to the product. -/
theorem flip_sum {n m : ℕ} (h4 : 4 ∣ m) {i : ℕ} (hi : i < n) (t : Fin m → Bool)
    (buf : Fin (challengeBytes n m) → Fin 256) (x : ℕ → Elt (ZMod q) 2) (j : Fin m) :
    ∃ d : ℤ, (t j = false → d = 0) ∧ (t j = true → d = 1 ∨ d = -1) ∧
      (∑ r ∈ Finset.range n, x r * ternaryOf (bufBytes (flipRow i ((m + 3) / 4) t buf)) n m r j) =
        (∑ r ∈ Finset.range n, x r * ternaryOf (bufBytes buf) n m r j) + (d : ZMod q) • x i := by
  obtain ⟨d, h1, h2, h3⟩ : ∃ d : ℤ, (t j = false → d = 0) ∧ (t j = true → d = 1 ∨ d = -1) ∧
      (ternaryOf (bufBytes (flipRow i ((m + 3) / 4) t buf)) n m i j : Elt (ZMod q) 2) =
        ternaryOf (bufBytes buf) n m i j + (d : ZMod q) • 1 := by
    obtain ⟨a1, a2⟩ := flip_entry h4 hi t buf 0 hi j.2
    obtain ⟨b1, b2⟩ := flip_entry h4 hi t buf 1 hi j.2
    rw [if_neg (by simp)] at b2
    rw [← b1] at b2
    simp only [true_and] at a2
    cases ht : t j
    · refine ⟨0, fun _ => rfl, fun h => by simp at h, ?_⟩
      rw [if_neg (by simp [ht]), ← a1] at a2
      unfold ternaryOf
      apply Elt.ext
      funext k
      simp only [Int.cast_zero, zero_smul, add_zero]
      have hk : k = 0 ∨ k = 1 := by omega
      rcases hk with rfl | rfl
      · rw [a2]
      · rw [b2]
    · rw [if_pos (by simp [ht])] at a2
      obtain ⟨d, hd, he⟩ := ofBits_flip
        ((((bufBytes buf).getD ((0 : Fin 2).val * (n * ((m + 3) / 4)) + (i * ((m + 3) / 4) + j.val / 4)) 0).toNat).testBit
          (2 * (j.val % 4)))
        ((((bufBytes buf).getD ((0 : Fin 2).val * (n * ((m + 3) / 4)) + (i * ((m + 3) / 4) + j.val / 4)) 0).toNat).testBit
          (2 * (j.val % 4) + 1))
      rw [he, ← a1] at a2
      refine ⟨d, fun h => by simp at h, fun _ => hd, ?_⟩
      unfold ternaryOf
      apply Elt.ext
      funext k
      rw [Elt.add_c, Elt.smul_c]
      have hk : k = 0 ∨ k = 1 := by omega
      rcases hk with rfl | rfl
      · dsimp only
        rw [a2, one_c0]
        push_cast
        ring
      · dsimp only
        rw [b2, one_c1, mul_zero, add_zero]
  refine ⟨d, h1, h2, ?_⟩
  have hrest : ∀ r < n, r ≠ i → (ternaryOf (bufBytes (flipRow i ((m + 3) / 4) t buf)) n m r j : Elt (ZMod q) 2) =
      ternaryOf (bufBytes buf) n m r j := by
    intro r hr hri
    unfold ternaryOf
    apply Elt.ext
    funext k
    obtain ⟨a1, a2⟩ := flip_entry h4 hi t buf k hr j.2
    rw [if_neg (by tauto), ← a1] at a2
    simp only
    rw [a2]
  rw [← Finset.add_sum_erase _ _ (Finset.mem_range.2 hi), ← Finset.add_sum_erase _ (fun r => x r * ternaryOf
    (bufBytes buf) n m r j) (Finset.mem_range.2 hi), h3]
  rw [Finset.sum_congr rfl fun r hr => by
    rw [hrest r (Finset.mem_range.1 (Finset.mem_of_mem_erase hr)) (Finset.ne_of_mem_erase hr)]]
  rw [mul_add, mul_smul_comm, mul_one]
  abel

theorem abs_diff {a b : ZMod q} {B : ℤ} (h1 : |a.valMinAbs| ≤ B) (h2 : |b.valMinAbs| ≤ B) :
    |(a - b).valMinAbs| ≤ 2 * B := by
  have h3 := abs_add_le' a (-b)
  have h4 := abs_neg' b
  rw [← sub_eq_add_neg] at h3
  omega

/-- **C68, what the smallness test shows.** If a coefficient of the vector is larger than twice the bound, then
for every mask at most one in `2^m` challenges has a short reply (`m` is the number of columns of the
challenge matrix, 64 in the library; the challenges are the byte strings that are drawn). -/
theorem C68_soundness (n m : ℕ) (hm : 0 < m) (h4 : 4 ∣ m) (x y : EVec q 2) (hx : x.length = n)
    (hy : y.length = m) (B : ℤ) (hB : 0 ≤ B) (i : ℕ) (hi : i < n) (c : Fin 2)
    (hbig : 2 * B < |((x.getD i 0).c c).valMinAbs|) :
    Nat.card {buf : Fin (challengeBytes n m) → Fin 256 // ReplyShort n m x y B (bufBytes buf)} * 2 ^ m ≤
      256 ^ challengeBytes n m := by
  have hn : 0 < n := by omega
  have e : (256 : ℕ) ^ challengeBytes n m = Nat.card (Fin (challengeBytes n m) → Fin 256) := by simp
  obtain ⟨good, hgood⟩ : ∃ good : ℕ → (Fin (challengeBytes n m) → Fin 256) → Prop, good = fun j buf => ∀ c : Fin 2,
    |(((∑ i ∈ Finset.range n, x.getD i 0 * ternaryOf (bufBytes buf) n m i j) + y.getD j 0).c c).valMinAbs| ≤ B :=
    ⟨_, rfl⟩
  have hiff : ∀ buf, ReplyShort n m x y B (bufBytes buf) ↔ ∀ j < m, good j buf := by
    intro buf
    rw [hgood]
    exact replyShort_iff hn hm h4 hx hy hB buf
  rw [e, Nat.card_congr (Equiv.subtypeEquivRight hiff)]
  refine card_mul_le m good (flipRow i ((m + 3) / 4)) (flipRow_injective i _) ?_
  intro a t ha j
  obtain ⟨d, h1, h2, h3⟩ := flip_sum h4 hi t a (fun r => x.getD r 0) j
  have hj := ha j j.2
  constructor
  · intro hf
    by_contra ht
    have ht : t j = true := by simpa using ht
    rw [hgood] at hj hf
    have a1 := hj c
    have a2 := hf c
    rw [h3] at a2
    have a3 := abs_diff a2 a1
    have e1 : ((((∑ r ∈ Finset.range n, x.getD r 0 * ternaryOf (bufBytes a) n m r j) + (d : ZMod q) • x.getD i 0) +
        y.getD j 0).c c - (((∑ r ∈ Finset.range n, x.getD r 0 * ternaryOf (bufBytes a) n m r j)) + y.getD j 0).c c) =
        d * (x.getD i 0).c c := by
      rw [Elt.add_c, Elt.add_c, Elt.add_c, Elt.smul_c]
      ring
    rw [e1] at a3
    rcases h2 ht with rfl | rfl
    · rw [Int.cast_one, one_mul] at a3
      omega
    · have a4 := abs_neg' (((-1 : ℤ) : ZMod q) * (x.getD i 0).c c)
      have e2 : -((((-1 : ℤ) : ZMod q)) * (x.getD i 0).c c) = (x.getD i 0).c c := by
        push_cast
        ring
      rw [e2] at a4
      omega
  · intro ht
    rw [h1 ht, Int.cast_zero, zero_smul, add_zero] at h3
    rw [hgood] at hj ⊢
    intro c
    rw [h3]
    exact hj c

/-- An element with coefficients close to `q/2` which becomes short when multiplied by `1+X` or `1-X`. -/
def halfElt (q : ℕ) : Elt (ZMod q) 2 := ⟨![((q - 1) / 2 : ℕ) + 1, ((q - 1) / 2 : ℕ)]⟩

theorem half_double (hq : q ≠ 2) : (((q - 1) / 2 : ℕ) : ZMod q) + ((q - 1) / 2 : ℕ) + 1 = 0 := by
  have hodd := (Fact.out : q.Prime).eq_two_or_odd'.resolve_left hq
  obtain ⟨k, hk⟩ := hodd
  have e : (q - 1) / 2 + (q - 1) / 2 + 1 = q := by omega
  have h := congrArg (Nat.cast (R := ZMod q)) e
  rw [ZMod.natCast_self] at h
  push_cast at h
  exact h

/-- Its products with `a + bX` are short if `a`, `b` are both zero or both 1 or -1. -/
theorem half_mul (hq : q ≠ 2) (a b : ℤ) (ha : a = 0 ∨ a = 1 ∨ a = -1) (hb : b = 0 ∨ b = 1 ∨ b = -1)
    (hab : a = 0 ↔ b = 0) (ρ : Elt (ZMod q) 2) (h0 : ρ.c 0 = a) (h1 : ρ.c 1 = b) (c : Fin 2) :
    |((halfElt q * ρ).c c).valMinAbs| ≤ 1 := by
  have hN : NeZero q := ⟨(Fact.out : q.Prime).ne_zero⟩
  have hd := half_double hq
  obtain ⟨h, hh⟩ : ∃ h : ZMod q, h = ((q - 1) / 2 : ℕ) := ⟨_, rfl⟩
  rw [← hh] at hd
  have c0 : (halfElt q * ρ).c 0 = (h + 1) * a - h * b := by
    rw [Elt.mul_c]
    simp [Fin.sum_univ_two, halfElt, h0, h1, ← hh]
    ring
  have c1 : (halfElt q * ρ).c 1 = (h + 1) * b + h * a := by
    rw [Elt.mul_c]
    simp [Fin.sum_univ_two, halfElt, h0, h1, ← hh]
  have key : ∃ z : ℤ, (z : ZMod q) = (halfElt q * ρ).c c ∧ |z| ≤ 1 := by
    have hc : c = 0 ∨ c = 1 := by omega
    have hsum : h + 1 + h = 0 := by linear_combination hd
    rcases hc with rfl | rfl
    · rw [c0]
      rcases ha with rfl | rfl | rfl <;> rcases hb with rfl | rfl | rfl <;> simp at hab
      · exact ⟨0, by push_cast; ring, by norm_num⟩
      · exact ⟨1, by push_cast; ring, by norm_num⟩
      · exact ⟨0, by push_cast; linear_combination -hsum, by norm_num⟩
      · exact ⟨0, by push_cast; linear_combination hsum, by norm_num⟩
      · exact ⟨-1, by push_cast; ring, by norm_num⟩
    · rw [c1]
      rcases ha with rfl | rfl | rfl <;> rcases hb with rfl | rfl | rfl <;> simp at hab
      · exact ⟨0, by push_cast; ring, by norm_num⟩
      · exact ⟨0, by push_cast; linear_combination -hsum, by norm_num⟩
      · exact ⟨-1, by push_cast; ring, by norm_num⟩
      · exact ⟨1, by push_cast; ring, by norm_num⟩
      · exact ⟨0, by push_cast; linear_combination hsum, by norm_num⟩
  obtain ⟨z, h2, h3⟩ := key
  exact (abs_le_of_cast h2).trans h3

/-- **C68, no better bound is possible.** There is a vector with a coefficient `(q-1)/2`, the largest possible one,
and a mask for which exactly one in `2^m` challenges has a short reply.  (With `m = 64` columns of ring elements
of degree 2 there are 128 coefficients in the reply, but the probability is `2⁻⁶⁴`, not `2⁻¹²⁸`.) -/
theorem C68_tight (hq : q ≠ 2) (n m : ℕ) (hn : 0 < n) (hm : 0 < m) (h4 : 4 ∣ m) (B : ℤ) (hB : 1 ≤ B)
    (hBq : 2 * B < ((q - 1) / 2 : ℕ)) :
    ∃ x y : EVec q 2, x.length = n ∧ y.length = m ∧ ((x.getD 0 0).c 1).valMinAbs = ((q - 1) / 2 : ℕ) ∧
      Nat.card {buf : Fin (challengeBytes n m) → Fin 256 // ReplyShort n m x y B (bufBytes buf)} * 2 ^ m =
        256 ^ challengeBytes n m := by
  have hN : NeZero q := ⟨(Fact.out : q.Prime).ne_zero⟩
  have h2q := (Fact.out : q.Prime).two_le
  obtain ⟨n, rfl⟩ : ∃ k, n = k + 1 := ⟨n - 1, by omega⟩
  obtain ⟨x, hx⟩ : ∃ x : EVec q 2, x = halfElt q :: List.replicate n 0 := ⟨_, rfl⟩
  obtain ⟨y, hy⟩ : ∃ y : EVec q 2, y = List.replicate m 0 := ⟨_, rfl⟩
  have hxl : x.length = n + 1 := by rw [hx]; simp
  have hyl : y.length = m := by rw [hy]; simp
  have hx0 : x.getD 0 0 = halfElt q := by rw [hx]; rfl
  have hbig : ((x.getD 0 0).c 1).valMinAbs = ((q - 1) / 2 : ℕ) := by
    rw [hx0]
    have e : (halfElt q).c 1 = ((((q - 1) / 2 : ℕ) : ℤ) : ZMod q) := (Int.cast_natCast _).symm
    rw [e, valMinAbs_cast _ (by rw [abs_of_nonneg (by positivity)]; omega)]
  refine ⟨x, y, hxl, hyl, hbig, le_antisymm ?_ ?_⟩
  · refine C68_soundness _ m hm h4 x y hxl hyl B (by omega) 0 hn 1 ?_
    rw [hbig, abs_of_nonneg (by positivity)]
    exact hBq
  · have e : (256 : ℕ) ^ challengeBytes (n + 1) m = Nat.card (Fin (challengeBytes (n + 1) m) → Fin 256) := by simp
    rw [e]
    refine card_le_mul m (fun buf => ReplyShort (n + 1) m x y B (bufBytes buf)) (flipRow 0 ((m + 3) / 4))
      (flipRow_injective 0 _) ?_
    intro buf
    -- flip where exactly one of the two coefficients is zero
    refine ⟨fun j => decide (¬ (ternEntry ((bufBytes buf).drop ((0 : Fin 2).val * ((n + 1) * ((m + 3) / 4)))) m 0 j = 0 ↔
      ternEntry ((bufBytes buf).drop ((1 : Fin 2).val * ((n + 1) * ((m + 3) / 4)))) m 0 j = 0)), ?_⟩
    rw [replyShort_iff hn hm h4 hxl hyl (by omega)]
    intro j hj c
    generalize ht : (fun j : Fin m => decide (¬ (ternEntry ((bufBytes buf).drop ((0 : Fin 2).val * ((n + 1) *
      ((m + 3) / 4)))) m 0 j = 0 ↔
      ternEntry ((bufBytes buf).drop ((1 : Fin 2).val * ((n + 1) * ((m + 3) / 4)))) m 0 j = 0))) = t
    obtain ⟨a1, a2⟩ := flip_entry h4 hn t buf 0 hn hj
    obtain ⟨b1, b2⟩ := flip_entry h4 hn t buf 1 hn hj
    have htj := congrFun ht ⟨j, hj⟩
    have htj : t ⟨j, hj⟩ = true ↔ ¬ (ternEntry ((bufBytes buf).drop ((0 : Fin 2).val * ((n + 1) *
        ((m + 3) / 4)))) m 0 j = 0 ↔
        ternEntry ((bufBytes buf).drop ((1 : Fin 2).val * ((n + 1) * ((m + 3) / 4)))) m 0 j = 0) := by
      rw [← htj]; exact decide_eq_true_iff
    rw [a1, b1, ofBits_eq_zero, ofBits_eq_zero] at htj
    rw [if_neg (by simp)] at b2
    simp only [true_and] at a2
    have hsum : (∑ i ∈ Finset.range (n + 1), x.getD i 0 * ternaryOf (bufBytes (flipRow 0 ((m + 3) / 4) t buf)) (n + 1) m i j) =
        halfElt q * ternaryOf (bufBytes (flipRow 0 ((m + 3) / 4) t buf)) (n + 1) m 0 j := by
      rw [Finset.sum_eq_single 0]
      · rw [hx0]
      · intro i hi h0
        obtain ⟨i, rfl⟩ : ∃ k, i = k + 1 := ⟨i - 1, by omega⟩
        rw [hx, List.getD_cons_succ]
        have : (List.replicate n (0 : Elt (ZMod q) 2)).getD i 0 = 0 := by
          rw [List.getD_eq_getElem?_getD, List.getElem?_replicate]
          by_cases h : i < n
          · rw [if_pos h]; rfl
          · rw [if_neg h]; rfl
        rw [this, zero_mul]
      · simp
    have hyj : y.getD j 0 = 0 := by
      rw [hy, List.getD_eq_getElem?_getD, List.getElem?_replicate, if_pos hj]; rfl
    rw [hsum, hyj, add_zero]
    refine (half_mul hq _ _ ?_ ?_ ?_ _ rfl rfl c).trans hB
    · rw [a2]; exact ofBits_zero _ _
    · rw [b2]; exact ofBits_zero _ _
    · rw [a2, b2, ofBits_eq_zero, ofBits_eq_zero]
      clear a1 a2 b1 b2 hsum
      revert htj
      generalize t ⟨j, hj⟩ = tv
      generalize Nat.testBit _ (2 * (j % 4)) = l1
      generalize Nat.testBit _ (2 * (j % 4) + 1) = u1
      generalize Nat.testBit _ (2 * (j % 4)) = l2
      generalize Nat.testBit _ (2 * (j % 4) + 1) = u2
      cases l1 <;> cases l2 <;> cases u1 <;> cases u2 <;> cases tv <;> simp

end

/-- **C68, norms over the integers.** With the library's parameters for fewer than `2^28` parties: if the 2600
committed values satisfy the norm equation of a block modulo `P`, but not over the integers, then for every mask
at most one in `2^64` challenges of the smallness test has a short reply. -/
theorem C68_norms {P : Params Regev.P} {b m : ℤ} {n : ℕ} (hg : Standard P.gk n) (h5 : 5 ≤ n) (hn : n < 2 ^ 28)
    (h : BoundsClose P b m) (x : ℕ → ZMod Regev.P) (k : ℕ) (hk : k < 10)
    (hsat : QuadSat ⟨List.range' (260 * k) 260, ((normBound P k ^ 2 : ℤ) : ZMod Regev.P)⟩ x x)
    (hbad : ¬ NormExact P x k) (y : EVec Regev.P 2) (hy : y.length = 64) :
    Nat.card {buf : Fin 41600 → Fin 256 //
      ReplyShort 1300 64 ((List.range 1300).map (eltAt x 0)) y P.B_smallness (bufBytes buf)} * 2 ^ 64 ≤
      256 ^ 41600 := by
  obtain ⟨-, -, -, -, -, -, -, -, hB, -⟩ := standard_facts hg h5 (by omega) h
  obtain ⟨i, h1, h2, h3⟩ : ∃ i, 260 * k ≤ i ∧ i < 260 * k + 260 ∧ 2 * P.B_smallness < |(x i).valMinAbs| := by
    by_contra hc
    push Not at hc
    exact hbad (C67_no_wrap hg h5 hn h x k hk hsat hc).1
  refine C68_soundness 1300 64 (by norm_num) (by norm_num) _ y (by simp) hy _ hB (i / 2) (by omega)
    ⟨i % 2, by omega⟩ ?_
  rw [List.getD_eq_getElem?_getD, List.getElem?_map, List.getElem?_range (by omega)]
  have e : 0 + 2 * (i / 2) + i % 2 = i := by omega
  simp only [Option.map_some, Option.getD_some, eltAt, e]
  exact h3

/-! ### The hypotheses can be met -/

/-- A vector of 1300 elements and a mask, for the numbers that the library uses. -/
example : ∃ x y : EVec Regev.P 2, x.length = 1300 ∧ y.length = 64 ∧
    2 * (2 ^ 100 : ℤ) < |((x.getD 7 0).c 1).valMinAbs| := by
  refine ⟨(List.range 1300).map fun i => if i = 7 then ⟨fun _ => ((2 ^ 102 : ℤ) : ZMod Regev.P)⟩ else 0,
    List.replicate 64 0, by rw [List.length_map, List.length_range], by rw [List.length_replicate], ?_⟩
  rw [List.getD_eq_getElem?_getD, List.getElem?_map, List.getElem?_range (by norm_num), Option.map_some, if_pos rfl,
    Option.getD_some, valMinAbs_cast _ (by unfold Regev.P; norm_num)]
  norm_num

/-- The numbers in `C68_tight`. -/
example : Regev.P ≠ 2 ∧ 2 * (2 ^ 100 : ℤ) < ((Regev.P - 1) / 2 : ℕ) := by unfold Regev.P; norm_num

/-- Values that meet a norm equation modulo `P` with 512 parties, but not over the integers: the bound, 1 and a square
root of -1. -/
example : ∃ (P : Params Regev.P) (b m : ℤ) (x : ℕ → ZMod Regev.P), Standard P.gk 512 ∧ BoundsClose P b m ∧
    QuadSat ⟨List.range' (260 * 7) 260, ((normBound P 7 ^ 2 : ℤ) : ZMod Regev.P)⟩ x x ∧ ¬ NormExact P x 7 := by
  obtain ⟨P, b, m, h1, -, -, h4⟩ := bounds_exist 512 (by norm_num) (by norm_num)
  obtain ⟨a1, a2, a3, a4, a5, a6, a7, a8, a9, -⟩ := standard_facts h1 (by norm_num) (by norm_num) h4
  obtain ⟨w, hw⟩ : IsSquare (-1 : ZMod Regev.P) :=
    (ZMod.exists_sq_eq_neg_one_iff).2 (by unfold Regev.P; norm_num)
  have hP : (2 : ℤ) ^ 252 < (Regev.P : ℕ) := by unfold Regev.P; norm_num
  have hv : ((P.B_sk : ZMod Regev.P)).valMinAbs = P.B_sk := by
    apply valMinAbs_cast
    rw [abs_of_nonneg (by omega)]
    omega
  have hv1 : ((1 : ZMod Regev.P)).valMinAbs = 1 := by
    have := valMinAbs_cast (q := Regev.P) 1 (by unfold Regev.P; norm_num)
    simpa using this
  have e : List.range' (260 * 7) 260 = 1820 :: 1821 :: 1822 :: List.range' 1823 257 := rfl
  obtain ⟨x, hx⟩ : ∃ x : ℕ → ZMod Regev.P,
    x = fun i => if i = 1820 then (P.B_sk : ZMod Regev.P) else if i = 1821 then 1 else if i = 1822 then w else 0 := ⟨_, rfl⟩
  have x0 : x 1820 = P.B_sk := by rw [hx]; rfl
  have x1 : x 1821 = 1 := by rw [hx]; rfl
  have x2 : x 1822 = w := by rw [hx]; rfl
  have x3 : ∀ i ∈ List.range' 1823 257, x i = 0 := by
    intro i hi
    rw [List.mem_range'] at hi
    obtain ⟨j, hj, rfl⟩ := hi
    rw [hx]
    simp only
    rw [if_neg (by omega), if_neg (by omega), if_neg (by omega)]
  refine ⟨P, b, m, x, h1, h4, ?_, ?_⟩
  · unfold QuadSat
    dsimp only
    rw [e]
    simp only [List.map_cons, List.sum_cons]
    rw [List.sum_eq_zero (l := List.map _ (List.range' 1823 257)), x0, x1, x2, ← hw, show normBound P 7 = P.B_sk from rfl]
    · push_cast; ring
    · intro z hz
      obtain ⟨i, hi, rfl⟩ := List.mem_map.1 hz
      rw [x3 i hi, mul_zero]
  · unfold NormExact normSq
    rw [e]
    simp only [List.map_cons, List.sum_cons]
    rw [x0, x1, x2, hv, hv1, show normBound P 7 = P.B_sk from rfl]
    have : 0 ≤ (((List.range' 1823 257).map x).map fun s => s.valMinAbs ^ 2).sum := by
      apply List.sum_nonneg
      intro z hz
      obtain ⟨s, -, rfl⟩ := List.mem_map.1 hz
      positivity
    have := sq_nonneg w.valMinAbs
    intro h
    omega

end Verif.Props
