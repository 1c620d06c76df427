import Verif.Lemmas.Smallness
import Verif.Lemmas.RegevEnc
import Verif.Lemmas.RegevFits
import Mathlib.Data.Fintype.Powerset
import Mathlib.Data.Nat.Choose.Basic

namespace Verif
open Spec Regev
open scoped BigOperators

/-! ### Counting -/

/-- If from every point at most `T` of the `2^m` ways to flip lead to a good point, then at most a fraction
`T/2^m` of the points are good. -/
theorem card_mul_le_of_flips {Ω : Type} [Finite Ω] (m T : ℕ) (good : Ω → Prop) (flip : (Fin m → Bool) → Ω → Ω)
    (hinj : ∀ t, Function.Injective (flip t)) (h : ∀ ω, Nat.card {t // good (flip t ω)} ≤ T) :
    Nat.card {ω // good ω} * 2 ^ m ≤ Nat.card Ω * T := by
  classical
  have : Fintype Ω := Fintype.ofFinite Ω
  have hbij : ∀ t, Function.Bijective (flip t) := fun t => Finite.injective_iff_bijective.1 (hinj t)
  have e : 2 ^ m = Nat.card (Fin m → Bool) := by simp
  obtain ⟨back, hback⟩ : ∃ back : (Fin m → Bool) → Ω → Ω, ∀ t ω, flip t (back t ω) = ω := by
    choose back hb using fun t => (hbij t).2
    exact ⟨back, hb⟩
  have hle := Nat.card_le_card_of_injective
    (fun p : {ω // good ω} × (Fin m → Bool) =>
      (⟨back p.2 p.1.1, ⟨p.2, by rw [hback]; exact p.1.2⟩⟩ : Σ ω, {t // good (flip t ω)})) (by
    rintro ⟨⟨a, ha⟩, t⟩ ⟨⟨b, hb⟩, s⟩ hab
    simp only [Sigma.mk.injEq] at hab
    obtain ⟨h1, h2⟩ := hab
    have ht : t = s := by
      have key : ∀ (ω ω' : Ω) (x : {t // good (flip t ω)}) (y : {t // good (flip t ω')}), ω = ω' → HEq x y →
          x.1 = y.1 := by
        rintro ω _ x y rfl hxy
        rw [eq_of_heq hxy]
      exact key _ _ ⟨t, _⟩ ⟨s, _⟩ h1 h2
    subst ht
    have hab : a = b := by rw [← hback t a, ← hback t b, h1]
    subst hab
    rfl)
  rw [Nat.card_prod, ← e, Nat.card_sigma] at hle
  refine hle.trans ?_
  rw [Nat.card_eq_fintype_card (α := Ω)]
  calc ∑ a : Ω, Nat.card {t // good (flip t a)} ≤ ∑ _a : Ω, T := Finset.sum_le_sum fun a _ => h a
    _ = Fintype.card Ω * T := by simp

/-- The number of subsets of an `m`-element set with at most `k` elements. -/
theorem card_small_subsets (m k : ℕ) :
    Nat.card {S : Finset (Fin m) // S.card ≤ k} ≤ ∑ i ∈ Finset.range (k + 1), m.choose i := by
  classical
  rw [Nat.card_eq_fintype_card, Fintype.card_subtype]
  have hsub : (Finset.univ.filter fun S : Finset (Fin m) => S.card ≤ k) ⊆
      (Finset.range (k + 1)).biUnion fun i => Finset.powersetCard i Finset.univ := by
    intro S hS
    rw [Finset.mem_filter] at hS
    rw [Finset.mem_biUnion]
    exact ⟨S.card, Finset.mem_range.2 (by omega), Finset.mem_powersetCard.2 ⟨Finset.subset_univ _, rfl⟩⟩
  refine (Finset.card_le_card hsub).trans (Finset.card_biUnion_le.trans ?_)
  refine Finset.sum_le_sum fun i _ => ?_
  rw [Finset.card_powersetCard, Finset.card_univ, Fintype.card_fin]

section
variable {q : ℕ} [Fact q.Prime]

/-- `m` numbers modulo `q`, each of which can be moved by a large number: few of the `2^m` choices leave the sum
of the squares small. -/
theorem card_small_sums (m k : ℕ) (B : ℤ) (C : ℤ) (hC : 0 ≤ C) (hk : 4 * B ^ 2 < (k + 1) * C ^ 2)
    (b δ : Fin m → ZMod q) (hδ : ∀ j, C ≤ |(δ j).valMinAbs|) (good : (Fin m → Bool) → Prop)
    (hgood : ∀ t, good t → ∑ j, (b j + if t j then δ j else 0).valMinAbs ^ 2 ≤ B ^ 2) :
    Nat.card {t // good t} ≤ ∑ i ∈ Finset.range (k + 1), m.choose i := by
  classical
  have hs : ∀ j, ∃ s : Bool, ∀ t : Bool, t = s → C ≤ 2 * |(b j + if t then δ j else 0).valMinAbs| := by
    intro j
    by_cases h : C ≤ 2 * |(b j).valMinAbs|
    · exact ⟨false, by rintro _ rfl; simpa using h⟩
    · refine ⟨true, ?_⟩
      rintro _ rfl
      simp only [if_true]
      have h1 := abs_add_le' (b j + δ j) (-b j)
      have h2 := abs_neg' (b j)
      have h3 : b j + δ j + -b j = δ j := by ring
      rw [h3] at h1
      have := hδ j
      omega
  choose s hs using hs
  refine le_trans ?_ (card_small_subsets m k)
  refine Nat.card_le_card_of_injective
    (fun t : {t // good t} => (⟨Finset.univ.filter fun j => t.1 j = s j, ?_⟩ : {S : Finset (Fin m) // S.card ≤ k})) ?_
  · by_contra hc
    push Not at hc
    have h1 := hgood t.1 t.2
    have h2 : ∑ j ∈ Finset.univ.filter (fun j => t.1 j = s j), C ^ 2 ≤
        4 * ∑ j, (b j + if t.1 j then δ j else 0).valMinAbs ^ 2 := by
      rw [Finset.mul_sum]
      refine le_trans (Finset.sum_le_sum fun j hj => ?_)
        (Finset.sum_le_sum_of_subset_of_nonneg (Finset.filter_subset _ _) fun j _ _ => by positivity)
      have h3 := hs j (t.1 j) (Finset.mem_filter.1 hj).2
      rw [← sq_abs (b j + if t.1 j then δ j else 0).valMinAbs]
      nlinarith
    rw [Finset.sum_const, nsmul_eq_mul] at h2
    have h4 : ((k : ℤ) + 1) * C ^ 2 ≤
        ((Finset.univ.filter fun j => t.1 j = s j).card : ℤ) * C ^ 2 :=
      mul_le_mul_of_nonneg_right (by exact_mod_cast hc) (by positivity)
    linarith
  · rintro ⟨a, ha⟩ ⟨b', hb⟩ hab
    simp only [Subtype.mk.injEq] at hab
    apply Subtype.ext
    funext j
    have h1 : j ∈ Finset.univ.filter (fun j => a j = s j) ↔ j ∈ Finset.univ.filter (fun j => b' j = s j) := by rw [hab]
    simp only [Finset.mem_filter, Finset.mem_univ, true_and] at h1
    show a j = b' j
    cases h2 : a j <;> cases h3 : b' j <;> cases h4 : s j <;> simp_all

end

/-! ### Flipping entries of a challenge matrix -/

/-- Flips the bits `t` of a buffer; bit `j` is bit `(pos j).2` of byte `(pos j).1`. -/
def flipBits {m N : ℕ} (pos : Fin m → ℕ × ℕ) (t : Fin m → Bool) (buf : Fin N → Fin 256) :
    Fin N → Fin 256 := fun k =>
  ⟨Nat.ofBits fun b : Fin 8 => xor ((buf k).val.testBit b) (decide (∃ j, pos j = (k.val, b.val) ∧ t j)),
    Nat.ofBits_lt_two_pow _⟩

theorem flipBits_testBit {m N : ℕ} (pos : Fin m → ℕ × ℕ) (t : Fin m → Bool) (buf : Fin N → Fin 256) (k : Fin N)
    (b : ℕ) (hb : b < 8) :
    (flipBits pos t buf k).val.testBit b =
      xor ((buf k).val.testBit b) (decide (∃ j, pos j = (k.val, b) ∧ t j)) := by
  unfold flipBits
  simp only
  rw [Nat.testBit_ofBits_lt _ _ hb]

theorem flipBits_injective {m N : ℕ} (pos : Fin m → ℕ × ℕ) (t : Fin m → Bool) :
    Function.Injective (flipBits (N := N) pos t) := by
  intro a b h
  funext k
  apply Fin.ext
  apply Nat.eq_of_testBit_eq
  intro i
  by_cases hi : i < 8
  · have h1 := flipBits_testBit pos t a k i hi
    have h2 := flipBits_testBit pos t b k i hi
    rw [h, h2] at h1
    exact (Bool.xor_left_inj.1 h1).symm
  · have h8 : ∀ x : Fin 256, x.val.testBit i = false := by
      intro x
      apply Nat.testBit_lt_two_pow
      calc x.val < 2 ^ 8 := x.2
        _ ≤ 2 ^ i := Nat.pow_le_pow_right (by norm_num) (by omega)
    rw [h8, h8]

/-- Where the low bit of the constant coefficient of entry `(r,c)` is stored, in a matrix with `nc` columns. -/
def cellPos (nc : ℕ) (p : ℕ × ℕ) : ℕ × ℕ := (p.1 * ((nc + 3) / 4) + p.2 / 4, 2 * (p.2 % 4))

theorem cellPos_inj {nc : ℕ} {p p' : ℕ × ℕ} (h : p.2 < nc) (h' : p'.2 < nc)
    (he : cellPos nc p = cellPos nc p') : p = p' := by
  obtain ⟨r, c⟩ := p
  obtain ⟨r', c'⟩ := p'
  unfold cellPos at he
  simp only [Prod.mk.injEq] at he h h' ⊢
  obtain ⟨h1, h2⟩ := he
  obtain ⟨w, hw⟩ : ∃ w, w = (nc + 3) / 4 := ⟨_, rfl⟩
  rw [← hw] at h1
  have hc : c / 4 < w := by omega
  have hc' : c' / 4 < w := by omega
  have hr : r = r' := by
    rcases lt_trichotomy r r' with hlt | rfl | hlt
    · have : (r + 1) * w ≤ r' * w := Nat.mul_le_mul_right _ hlt
      rw [Nat.add_mul] at this
      omega
    · rfl
    · have : (r' + 1) * w ≤ r * w := Nat.mul_le_mul_right _ hlt
      rw [Nat.add_mul] at this
      omega
  subst hr
  exact ⟨rfl, by omega⟩

section
variable {q : ℕ} [Fact q.Prime]

/-- Flipping the low bits of the constant coefficients of some entries adds ±1 to these and changes nothing
else. -/
theorem flip_cells {m nr nc : ℕ} (h4 : 4 ∣ nc) (cell : Fin m → ℕ × ℕ) (hinj : Function.Injective cell)
    (hcell : ∀ j, (cell j).1 < nr ∧ (cell j).2 < nc) (buf : Fin (challengeBytes nr nc) → Fin 256) :
    ∃ δ : Fin m → ℤ, (∀ j, δ j = 1 ∨ δ j = -1) ∧ ∀ t : Fin m → Bool,
      let buf' := flipBits (fun j => cellPos nc (cell j)) t buf
      (∀ j, (ternaryOf (bufBytes buf') nr nc (cell j).1 (cell j).2 : Elt (ZMod q) 2) =
        ternaryOf (bufBytes buf) nr nc (cell j).1 (cell j).2 + (if t j then (δ j : ZMod q) else 0) • 1) ∧
      ∀ r c, r < nr → c < nc → (∀ j, cell j ≠ (r, c)) →
        (ternaryOf (bufBytes buf') nr nc r c : Elt (ZMod q) 2) = ternaryOf (bufBytes buf) nr nc r c := by
  obtain ⟨w, hw⟩ : ∃ w, w = (nc + 3) / 4 := ⟨_, rfl⟩
  have hnc : nc = 4 * w := by obtain ⟨v, rfl⟩ := h4; omega
  have hN : challengeBytes nr nc = 2 * (nr * w) := by
    unfold challengeBytes
    rw [hnc, show nr * (4 * w) = 4 * (nr * w) by ring]
    omega
  have hidx0 : ∀ r c, r < nr → c < nc → r * w + c / 4 < nr * w := by
    intro r c hr hc
    calc r * w + c / 4 < r * w + w := by omega
      _ = (r + 1) * w := by ring
      _ ≤ nr * w := Nat.mul_le_mul_right _ hr
  have hidx : ∀ (k : Fin 2) r c, r < nr → c < nc → k.val * (nr * w) + (r * w + c / 4) < challengeBytes nr nc := by
    intro k r c hr hc
    have := hidx0 r c hr hc
    have : k.val * (nr * w) ≤ 1 * (nr * w) := Nat.mul_le_mul_right _ (by omega)
    omega
  -- the entries, from the bits
  have hent : ∀ (b : Fin (challengeBytes nr nc) → Fin 256) (k : Fin 2) r c (hr : r < nr) (hc : c < nc),
      (ternaryOf (bufBytes b) nr nc r c : Elt (ZMod q) 2).c k =
        ((ofBits ((b ⟨_, hidx k r c hr hc⟩).val.testBit (2 * (c % 4)))
          ((b ⟨_, hidx k r c hr hc⟩).val.testBit (2 * (c % 4) + 1)) : ℤ) : ZMod q) := by
    intro b k r c hr hc
    unfold ternaryOf ternEntry
    simp only [← hw]
    have e : ((bufBytes b).drop (k.val * (nr * w))).getD (r * w + c / 4) 0 =
        (bufBytes b).getD (k.val * (nr * w) + (r * w + c / 4)) 0 := by
      rw [List.getD_eq_getElem?_getD, List.getD_eq_getElem?_getD, List.getElem?_drop]
    rw [e, bufBytes_getD b _ (hidx k r c hr hc)]
  -- the high bits and the other component are never flipped
  have hpos : ∀ (t : Fin m → Bool) (k : Fin 2) r c (hr : r < nr) (hc : c < nc) (h : Fin 2),
      (∃ j, cellPos nc (cell j) = (k.val * (nr * w) + (r * w + c / 4), 2 * (c % 4) + h.val) ∧ t j) →
      k = 0 ∧ h = 0 ∧ ∃ j, cell j = (r, c) ∧ t j := by
    rintro t k r c hr hc h ⟨j, hj, ht⟩
    have hj' := hj
    unfold cellPos at hj
    simp only [Prod.mk.injEq, ← hw] at hj
    have hb := hidx0 _ _ (hcell j).1 (hcell j).2
    have hk : k = 0 := by
      by_contra hk
      have : k.val = 1 := by omega
      rw [this] at hj
      omega
    have hh : h = 0 := by
      have := h.2
      apply Fin.ext
      show h.val = 0
      omega
    refine ⟨hk, hh, j, ?_, ht⟩
    apply cellPos_inj (hcell j).2 hc
    rw [hj', hk, hh]
    unfold cellPos
    simp [hw]
  have hbit : ∀ (t : Fin m → Bool) (k : Fin 2) r c (hr : r < nr) (hc : c < nc) (h : Fin 2),
      (¬ (k = 0 ∧ h = 0 ∧ ∃ j, cell j = (r, c) ∧ t j) →
        (flipBits (fun j => cellPos nc (cell j)) t buf ⟨_, hidx k r c hr hc⟩).val.testBit (2 * (c % 4) + h.val) =
          (buf ⟨_, hidx k r c hr hc⟩).val.testBit (2 * (c % 4) + h.val)) := by
    intro t k r c hr hc h hno
    rw [flipBits_testBit _ _ _ _ _ (by omega), decide_eq_false, Bool.xor_false]
    intro hex
    exact hno (hpos t k r c hr hc h hex)
  have hlow : ∀ (t : Fin m → Bool) (j : Fin m),
      (flipBits (fun j => cellPos nc (cell j)) t buf ⟨_, hidx 0 _ _ (hcell j).1 (hcell j).2⟩).val.testBit
        (2 * ((cell j).2 % 4)) =
          xor ((buf ⟨_, hidx 0 _ _ (hcell j).1 (hcell j).2⟩).val.testBit (2 * ((cell j).2 % 4))) (t j) := by
    intro t j
    rw [flipBits_testBit _ _ _ _ _ (by omega)]
    congr 1
    rw [Bool.eq_iff_iff, decide_eq_true_iff]
    constructor
    · intro hex
      obtain ⟨-, -, j', h1, h2⟩ := hpos t 0 _ _ (hcell j).1 (hcell j).2 0 hex
      rw [← hinj (a₁ := j') (a₂ := j) h1]
      exact h2
    · intro ht
      refine ⟨j, ?_, ht⟩
      unfold cellPos
      simp [hw]
  obtain ⟨d, hd⟩ : ∃ d : Fin m → ℤ, ∀ j, (d j = 1 ∨ d j = -1) ∧
      ofBits (!(buf ⟨_, hidx 0 _ _ (hcell j).1 (hcell j).2⟩).val.testBit (2 * ((cell j).2 % 4)))
        ((buf ⟨_, hidx 0 _ _ (hcell j).1 (hcell j).2⟩).val.testBit (2 * ((cell j).2 % 4) + 1)) =
      ofBits ((buf ⟨_, hidx 0 _ _ (hcell j).1 (hcell j).2⟩).val.testBit (2 * ((cell j).2 % 4)))
        ((buf ⟨_, hidx 0 _ _ (hcell j).1 (hcell j).2⟩).val.testBit (2 * ((cell j).2 % 4) + 1)) + d j := by
    choose d hd using fun j => ofBits_flip
      ((buf ⟨_, hidx 0 _ _ (hcell j).1 (hcell j).2⟩).val.testBit (2 * ((cell j).2 % 4)))
      ((buf ⟨_, hidx 0 _ _ (hcell j).1 (hcell j).2⟩).val.testBit (2 * ((cell j).2 % 4) + 1))
    exact ⟨d, hd⟩
  refine ⟨d, fun j => (hd j).1, fun t => ⟨fun j => ?_, fun r c hr hc hno => ?_⟩⟩
  · apply Elt.ext
    funext k
    rw [Elt.add_c, Elt.smul_c, hent _ k _ _ (hcell j).1 (hcell j).2, hent _ k _ _ (hcell j).1 (hcell j).2]
    have hhi := hbit t k _ _ (hcell j).1 (hcell j).2 1 (by rintro ⟨-, h, -⟩; simp at h)
    have e1 : ((1 : Fin 2).val) = 1 := rfl
    rw [e1] at hhi
    rw [hhi]
    have hk : k = 0 ∨ k = 1 := by omega
    rcases hk with rfl | rfl
    · rw [hlow t j, one_c0, mul_one]
      cases ht : t j
      · simp
      · rw [Bool.xor_true, (hd j).2]
        push_cast
        simp
    · have hlo := hbit t 1 _ _ (hcell j).1 (hcell j).2 0 (by rintro ⟨h, -⟩; simp at h)
      have e0 : ((0 : Fin 2).val) = 0 := rfl
      rw [e0, Nat.add_zero] at hlo
      rw [hlo, one_c1, mul_zero, add_zero]
  · apply Elt.ext
    funext k
    rw [hent _ k r c hr hc, hent _ k r c hr hc]
    have hno' : ∀ h : Fin 2, ¬ (k = 0 ∧ h = 0 ∧ ∃ j, cell j = (r, c) ∧ t j) := by
      rintro h ⟨-, -, j, hj, -⟩
      exact hno j hj
    have h0 := hbit t k r c hr hc 0 (hno' 0)
    have h1 := hbit t k r c hr hc 1 (hno' 1)
    have e0 : ((0 : Fin 2).val) = 0 := rfl
    have e1 : ((1 : Fin 2).val) = 1 := rfl
    rw [e0, Nat.add_zero] at h0
    rw [e1] at h1
    rw [h0, h1]

theorem valMinAbs_pm (a : ZMod q) {d : ℤ} (hd : d = 1 ∨ d = -1) : |((d : ZMod q) * a).valMinAbs| = |a.valMinAbs| := by
  rcases hd with rfl | rfl
  · simp
  · have e : ((-1 : ℤ) : ZMod q) * a = -a := by push_cast; ring
    rw [e]
    refine le_antisymm (abs_neg' a) ?_
    have := abs_neg' (-a)
    rwa [neg_neg] at this

/-- The general form: `m` values, linear in the entries of the matrix, where value `j` contains entry `cell j` times
an element with a large coefficient. -/
theorem compress_card {m nr nc k : ℕ} (h4 : 4 ∣ nc) (cell : Fin m → ℕ × ℕ) (hinj : Function.Injective cell)
    (hcell : ∀ j, (cell j).1 < nr ∧ (cell j).2 < nc) (B : ℤ) (v : Elt (ZMod q) 2) (c : Fin 2)
    (hbig : 4 * B ^ 2 < (k + 1) * (v.c c).valMinAbs ^ 2)
    (val : (Fin (challengeBytes nr nc) → Fin 256) → Fin m → Elt (ZMod q) 2)
    (hval : ∀ buf t j, ∃ rest : Elt (ZMod q) 2,
      val buf j = rest + ternaryOf (bufBytes buf) nr nc (cell j).1 (cell j).2 * v ∧
      val (flipBits (fun j => cellPos nc (cell j)) t buf) j = rest +
        ternaryOf (bufBytes (flipBits (fun j => cellPos nc (cell j)) t buf)) nr nc (cell j).1 (cell j).2 * v)
    (good : (Fin (challengeBytes nr nc) → Fin 256) → Prop)
    (hgood : ∀ buf, good buf → ∑ j, ((val buf j).c c).valMinAbs ^ 2 ≤ B ^ 2) :
    Nat.card {buf // good buf} * 2 ^ m ≤
      256 ^ challengeBytes nr nc * ∑ i ∈ Finset.range (k + 1), m.choose i := by
  have e : (256 : ℕ) ^ challengeBytes nr nc = Nat.card (Fin (challengeBytes nr nc) → Fin 256) := by simp
  rw [e]
  refine card_mul_le_of_flips m _ good (flipBits fun j => cellPos nc (cell j)) (flipBits_injective _) fun buf => ?_
  obtain ⟨δ, hδ, hflip⟩ := flip_cells (q := q) h4 cell hinj hcell buf
  refine card_small_sums m k B |(v.c c).valMinAbs| (abs_nonneg _) (by rw [sq_abs]; exact hbig)
    (fun j => (val buf j).c c) (fun j => (δ j : ZMod q) * v.c c) (fun j => by rw [valMinAbs_pm _ (hδ j)]) _ ?_
  intro t ht
  have h1 := hgood _ ht
  refine le_of_eq_of_le (Finset.sum_congr rfl fun j _ => ?_) h1
  obtain ⟨rest, r1, r2⟩ := hval buf t j
  rw [r2, (hflip t).1 j, r1]
  congr 2
  cases t j
  · simp
  · simp only [if_true]
    rw [add_mul, smul_mul_assoc, one_mul]
    simp only [Elt.add_c, Elt.smul_c]
    ring

end
end Verif
