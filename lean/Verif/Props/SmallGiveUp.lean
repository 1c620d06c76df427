/-
C91: how rarely the smallness proof of an honest prover gives up.
-/
import Verif.Lemmas.SmallVector
import Verif.Spec.SmallGiveUp
import Verif.Props.Masking
import Verif.Props.GiveUp
import Verif.Props.Library

namespace Verif.Props
open Verif Spec Regev
open scoped BigOperators

section
variable {q : ℕ} [Fact q.Prime] {G : Type} [AddCommGroup G] [Module (ZMod q) G] [DecidableEq G]

/-- **C91, one trial.** For every vector: the number of choices of the randomness of one trial with which it is accepted is
`(2B+2)^128` for each commitment whose challenge makes the product of the vector pass its size check, added up over all
these commitments. -/
theorem C91_trial {E : Env (ZMod q) G} (hE : LengthOk E) (hB : Function.Bijective (fun s : ZMod q => s • E.base))
    {P : Params q} (hq : 2 ^ (P.smlnsBits + 1) ≤ q) (hB0 : 0 ≤ P.B_smallness)
    (hfit : P.B_smallness + P.B_smallness.fdiv 128 < 2 ^ P.smlnsBits) {ix : Indexes} {Gs : List G}
    (hG : ix.y + 128 ≤ Gs.length) (st : E.St) {w : EVec q 2} (hw : w.length = 1300) :
    (Nat.card {ρ : TrialCoins P.smlnsBits q // ∃ t, smallLoop E P ix Gs st w (fun _ => ρ.stream) 0 1 = .ok t} : ℤ) =
      Nat.card {C : G // CoeffsWithin (P.B_smallness.fdiv 128) (product E st w C)} * (2 * P.B_smallness + 2) ^ 128 := by
  classical
  have : Fintype G := Fintype.ofBijective _ hB
  have e1 : Nat.card {ρ : TrialCoins P.smlnsBits q // ∃ t, smallLoop E P ix Gs st w (fun _ => ρ.stream) 0 1 = .ok t} =
      ∑ C : G, acceptCount E P ix Gs st w C := by
    rw [Nat.card_eq_fintype_card, Fintype.card_subtype, Finset.card_eq_sum_card_fiberwise
      (f := fun ρ : TrialCoins P.smlnsBits q =>
        ρ.2 • E.base + mexp (coeffs (ofCoeffs (maskOf (q := q) P.smlnsBits ρ.1))) (Gs.drop ix.y))
      (t := Finset.univ) (fun _ _ => Finset.mem_coe.2 (Finset.mem_univ _))]
    refine Finset.sum_congr rfl fun C _ => ?_
    unfold acceptCount
    congr 1
    ext ρ
    simp only [Finset.mem_filter, Finset.mem_univ, true_and]
    constructor
    · rintro ⟨⟨t, h1⟩, h2⟩
      obtain ⟨h3, -⟩ := (accept_iff hE hw hB0 hG t.yCom ρ).1 ⟨t, h1, rfl⟩
      exact ⟨t, h1, h3.symm.trans h2⟩
    · intro h
      obtain ⟨t, h1, -⟩ := id h
      exact ⟨⟨t, h1⟩, ((accept_iff hE hw hB0 hG C ρ).1 h).1⟩
  rw [e1]
  push_cast
  have e2 : ∀ C : G, (acceptCount E P ix Gs st w C : ℤ) =
      if CoeffsWithin (P.B_smallness.fdiv 128) (product E st w C) then (2 * P.B_smallness + 2) ^ 128 else 0 := by
    intro C
    obtain ⟨r1, r2⟩ := C81_rate hE hB hq hB0 hfit hG st hw C
    split_ifs with h
    · exact r1 h
    · rw [r2 h]; rfl
  rw [Finset.sum_congr rfl fun C _ => e2 C, ← Finset.sum_filter, Finset.sum_const, nsmul_eq_mul,
    Nat.card_eq_fintype_card, Fintype.card_subtype]

theorem accepted_trial {E : Env (ZMod q) G} (hE : LengthOk E) {P : Params q} (hB0 : 0 ≤ P.B_smallness) {ix : Indexes}
    {Gs : List G} (hG : ix.y + 128 ≤ Gs.length) (st : E.St) {w : EVec q 2} (hw : w.length = 1300)
    (rnd : ℕ → SmallRnd q) (i : ℕ) :
    SmallAccepted E P st ix Gs w rnd i ↔ ∃ t, smallLoop E P ix Gs st w (fun _ => rnd i) 0 1 = .ok t := by
  constructor
  · intro h
    unfold SmallAccepted at h
    simp only at h
    obtain ⟨t, h1, -⟩ := (trial_eq hE (fun _ => rnd i) hw hB0 hG _ _).2 ⟨rfl, rfl, h.1, h.2⟩
    exact ⟨t, h1⟩
  · rintro ⟨t, h1⟩
    obtain ⟨a, b, c, d⟩ := (trial_eq hE (fun _ => rnd i) hw hB0 hG t.yCom t.z).1 ⟨t, h1, rfl, rfl⟩
    unfold SmallAccepted
    simp only
    have a' : (rnd i).r • E.base + mexp (coeffs (smallMask P rnd i)) (Gs.drop ix.y) = t.yCom := a
    rw [a']
    refine ⟨c, ?_⟩
    have b' : List.zipWith (· + ·) (compressLeft 1300 64 w (matrixFrom E (absorb E st [("smallnessPf", t.yCom)])
      "Smallness" 1300 64).1) (smallMask P rnd i) = t.z := b
    rw [b']
    exact d

/-- **C91, all trials.** The smallness proof gives up (throws) exactly for the `b^100` choices of its randomness in which
all 100 trials are rejected, where `b` is the number of choices with which one trial is rejected. -/
theorem C91_gives_up {E : Env (ZMod q) G} (hE : LengthOk E) {P : Params q} (hB0 : 0 ≤ P.B_smallness)
    {vd : VerifierData (ZMod q) G E.St} {pd : ProverData (ZMod q)} (S : Setup P vd pd) :
    Nat.card {x : SmallCoins P.smlnsBits q // ¬ ∃ r, proveSmallness E P x.streams vd pd = .ok r} =
      Nat.card {ρ : TrialCoins P.smlnsBits q //
        ¬ ∃ t, smallLoop E P vd.ix vd.Gs vd.mer pd.compressed (fun _ => ρ.stream) 0 1 = .ok t} ^ 100 ∧
    ∀ x : SmallCoins P.smlnsBits q, (¬ ∃ r, proveSmallness E P x.streams vd pd = .ok r) →
      proveSmallness E P x.streams vd pd = .throw := by
  have hL := lay_of S.layout
  have hGs := S.gs
  have hG : vd.ix.y + 128 ≤ vd.Gs.length := by rw [hL.y]; rw [hL.w] at hGs; omega
  have key : ∀ x : SmallCoins P.smlnsBits q, (¬ ∃ r, proveSmallness E P x.streams vd pd = .ok r) ↔
      ∀ i, ¬ ∃ t, smallLoop E P vd.ix vd.Gs vd.mer pd.compressed (fun _ => (x i).stream) 0 1 = .ok t := by
    intro x
    have hs : ∀ i : Fin 100, x.streams i = (x i).stream := by
      intro i
      unfold SmallCoins.streams
      rw [dif_pos i.2]
    obtain ⟨t1, t2⟩ := C43_smallness_defined hE (rnd := x.streams) S hB0
    constructor
    · intro h i hi
      refine h (t1 ⟨i, i.2, ?_⟩)
      rw [accepted_trial hE hB0 hG _ S.compressed, hs]
      exact hi
    · rintro h ⟨r, hr⟩
      rw [t2] at hr
      · cases hr
      · rintro ⟨i, hi, ha⟩
        rw [accepted_trial hE hB0 hG _ S.compressed, hs ⟨i, hi⟩] at ha
        exact h ⟨i, hi⟩ ha
  constructor
  · rw [Nat.card_congr (Equiv.subtypeEquivRight key), Nat.card_congr
      (Equiv.subtypePiEquivPi (p := fun (_ : Fin 100) (ρ : TrialCoins P.smlnsBits q) =>
        ¬ ∃ t, smallLoop E P vd.ix vd.Gs vd.mer pd.compressed (fun _ => ρ.stream) 0 1 = .ok t)), Nat.card_fun]
    simp
  · intro x h
    obtain ⟨t1, t2⟩ := C43_smallness_defined hE (rnd := x.streams) S hB0
    exact t2 fun ha => h (t1 ha)

end

/-! ### The library's parameters -/

/-- **C91, vector.** With the library's bounds the product of an honest prover's vector with the challenge matrix always
passes its size check, whatever the challenge: for the vector that the functions of a round before the smallness proof
leave behind, even if the four-square search failed. -/
theorem C91_product {G : Type} [AddCommGroup G] [Module (ZMod Regev.P) G] [DecidableEq G] {E : Env (ZMod Regev.P) G}
    (hE : LengthOk E) {P : Params Regev.P} (hP : ParamsOk P) {tests : ℕ → Tests}
    (hT : ∀ k, NoFalsePrimes (tests k).probPrime) {fresh : Blocks (ZMod Regev.P)} {inp : RoundInput Regev.P}
    (hI : Honest P inp) {vd vd' : VerifierData (ZMod Regev.P) G E.St} {pd pd' : ProverData (ZMod Regev.P)}
    (S : Start E P inp.sk1 vd pd) {n : ℕ} {b m : ℤ} (hg : Standard P.gk n) (h5 : 5 ≤ n) (hn : n < 2 ^ 30)
    (hb : BoundsClose P b m) (h : recordRound E P fresh tests inp vd pd = .ok (vd', pd'))
    (st : E.St) (C : G) :
    CoeffsWithin (P.B_smallness.fdiv 128) (product E st pd'.compressed C) := by
  obtain ⟨S', hbl⟩ := record_blocks hE hP hT hI S h
  refine within_of_l1 E st S'.compressed _ (le_trans (compressed_l1 S'.compressed
    (fun k hk => (hbl k hk).compressed) fun k hk => ⟨(hbl k hk).size, ?_⟩)
    (sum_bounds hg h5 hn hb)) C
  exact bound_six hg h5 hn hb k hk

/-- The bound on the masked product, compared with the masks. -/
theorem bound_lo (delta : ℕ) (gk : GlobalKey Regev.P 2) (H : List (List (ZMod Regev.P))) {P : Params Regev.P}
    (h : verifierBounds delta gk H = .ok P) (h0 : 59000 ≤ P.B_smallness) :
    128 * 2 ^ P.smlnsBits ≤ 129 * (P.B_smallness + 1) ∧ 129 * P.B_smallness ≤ 128 * 2 ^ P.smlnsBits := by
  unfold verifierBounds at h
  simp only at h
  split_ifs at h with hif
  have e := Res.ok.inj h
  have e1 := congrArg Params.B_smallness e
  have e2 := congrArg Params.smlnsBits e
  simp only at e1 e2
  rw [← e1] at h0
  rw [← e1, ← e2]
  revert h0
  generalize ⌈Real.logb 2 (9.75 * 129 * √2600) + _ - _⌉ = k
  intro h0
  have hk : oneShl k = 2 ^ k.toNat := by
    unfold oneShl at h0 ⊢
    split_ifs with hk0
    · rw [if_pos hk0] at h0
      simp [multDbl] at h0
    · rfl
  have h1 : 128 / 129 * (oneShl k : ℝ) < multDbl (128 / 129) (oneShl k) + 1 := Int.lt_floor_add_one _
  have h2 : (multDbl (128 / 129) (oneShl k) : ℝ) ≤ 128 / 129 * oneShl k := Int.floor_le _
  rw [← hk]
  constructor
  · have : (128 * (oneShl k : ℝ)) ≤ 129 * (multDbl (128 / 129) (oneShl k) + 1) := by linarith
    exact_mod_cast this
  · have : (129 * multDbl (128 / 129) (oneShl k) : ℝ) ≤ 128 * (oneShl k : ℝ) := by linarith
    exact_mod_cast this

theorem card_trialCoins (s q : ℕ) [NeZero q] : Nat.card (TrialCoins s q) = (2 ^ s * 2) ^ 128 * q := by
  rw [Nat.card_prod, Nat.card_fun, Nat.card_fun, Nat.card_prod, Nat.card_zmod]
  simp only [Nat.card_eq_fintype_card, Fintype.card_fin, Fintype.card_bool]
  rw [← pow_mul]

theorem rate_arith {B M : ℕ} (h1 : 128 * M ≤ 129 * (B + 1)) (h2 : 129 * B ≤ 128 * M) (h3 : 59000 ≤ B) :
    369 * (M * 2) ^ 128 ≤ 1000 * (2 * B + 2) ^ 128 ∧ 1000 * (2 * B + 2) ^ 128 ≤ 375 * (M * 2) ^ 128 := by
  have e : (2 * B + 2) ^ 128 = (B + 1) ^ 128 * 2 ^ 128 := by rw [← mul_pow]; ring
  rw [e, mul_pow]
  constructor
  · have k := Nat.pow_le_pow_left h1 128
    rw [mul_pow, mul_pow] at k
    have c : 369 * 129 ^ 128 ≤ 1000 * 128 ^ 128 := by norm_num
    have : 369 * M ^ 128 ≤ 1000 * (B + 1) ^ 128 := by
      refine Nat.le_of_mul_le_mul_left (c := 129 ^ 128) ?_ (by positivity)
      generalize M ^ 128 = X at *
      generalize (B + 1) ^ 128 = Y at *
      calc 129 ^ 128 * (369 * X) = (369 * 129 ^ 128) * X := by ring
        _ ≤ (1000 * 128 ^ 128) * X := Nat.mul_le_mul_right _ c
        _ = 1000 * (128 ^ 128 * X) := by ring
        _ ≤ 1000 * (129 ^ 128 * Y) := Nat.mul_le_mul_left _ k
        _ = 129 ^ 128 * (1000 * Y) := by ring
    calc 369 * (M ^ 128 * 2 ^ 128) = (369 * M ^ 128) * 2 ^ 128 := by ring
      _ ≤ (1000 * (B + 1) ^ 128) * 2 ^ 128 := Nat.mul_le_mul_right _ this
      _ = _ := by ring
  · have h4 : 59000 * 129 * (B + 1) ≤ 59001 * 128 * M := by omega
    have k := Nat.pow_le_pow_left h4 128
    rw [mul_pow, mul_pow _ M] at k
    have c : 1000 * (59001 * 128) ^ 128 ≤ 375 * (59000 * 129) ^ 128 := by norm_num
    have : 1000 * (B + 1) ^ 128 ≤ 375 * M ^ 128 := by
      refine Nat.le_of_mul_le_mul_left (c := (59000 * 129) ^ 128) ?_ (by positivity)
      generalize M ^ 128 = X at *
      generalize (B + 1) ^ 128 = Y at *
      calc (59000 * 129) ^ 128 * (1000 * Y) = 1000 * ((59000 * 129) ^ 128 * Y) := by ring
        _ ≤ 1000 * ((59001 * 128) ^ 128 * X) := Nat.mul_le_mul_left _ k
        _ = (1000 * (59001 * 128) ^ 128) * X := by ring
        _ ≤ (375 * (59000 * 129) ^ 128) * X := Nat.mul_le_mul_right _ c
        _ = (59000 * 129) ^ 128 * (375 * X) := by ring
    calc 1000 * ((B + 1) ^ 128 * 2 ^ 128) = (1000 * (B + 1) ^ 128) * 2 ^ 128 := by ring
      _ ≤ (375 * M ^ 128) * 2 ^ 128 := Nat.mul_le_mul_right _ this
      _ = _ := by ring

section
variable {G : Type} [AddCommGroup G] [Module (ZMod Regev.P) G] [DecidableEq G] {E : Env (ZMod Regev.P) G}

/-- **C91, rate.** With the library's parameters, one trial on a vector whose product always passes its size check is accepted
for between 36.9% and 37.5% of the choices of its randomness: about one in `e`, whatever the vector. -/
theorem C91_rate (hE : LengthOk E) (hB : Function.Bijective (fun s : ZMod Regev.P => s • E.base)) (delta : ℕ)
    (gk : GlobalKey Regev.P 2) (H : List (List (ZMod Regev.P))) {n : ℕ} (hg : Standard gk n) (h5 : 5 ≤ n) (hn : n < 2 ^ 30)
    {P : Params Regev.P} (h : verifierBounds delta gk H = .ok P) {ix : Indexes} {Gs : List G}
    (hG : ix.y + 128 ≤ Gs.length) (st : E.St) {w : EVec Regev.P 2} (hw : w.length = 1300)
    (hp : ∀ C, CoeffsWithin (P.B_smallness.fdiv 128) (product E st w C)) :
    369 * Nat.card (TrialCoins P.smlnsBits Regev.P) ≤ 1000 * Nat.card {ρ : TrialCoins P.smlnsBits Regev.P //
      ∃ t, smallLoop E P ix Gs st w (fun _ => ρ.stream) 0 1 = .ok t} ∧
    1000 * Nat.card {ρ : TrialCoins P.smlnsBits Regev.P //
      ∃ t, smallLoop E P ix Gs st w (fun _ => ρ.stream) 0 1 = .ok t} ≤ 375 * Nat.card (TrialCoins P.smlnsBits Regev.P) := by
  obtain ⟨a1, a2, a3⟩ := C81_setting delta gk H hg h5 hn h
  obtain ⟨b1, b2⟩ := bound_lo delta gk H h a2
  have k := C91_trial hE hB a1 (by omega) a3 hG st hw
  have : NeZero Regev.P := ⟨(Fact.out : Regev.P.Prime).ne_zero⟩
  have e : Nat.card {C : G // CoeffsWithin (P.B_smallness.fdiv 128) (product E st w C)} = Regev.P := by
    rw [Nat.card_congr (Equiv.subtypeUnivEquiv hp), ← Nat.card_congr (Equiv.ofBijective _ hB), Nat.card_zmod]
  rw [e] at k
  obtain ⟨B, hBe⟩ := Int.eq_ofNat_of_zero_le (by omega : 0 ≤ P.B_smallness)
  rw [hBe] at k b1 b2 a2
  have k' : Nat.card {ρ : TrialCoins P.smlnsBits Regev.P //
      ∃ t, smallLoop E P ix Gs st w (fun _ => ρ.stream) 0 1 = .ok t} = Regev.P * (2 * B + 2) ^ 128 := by
    exact_mod_cast k
  rw [k', card_trialCoins]
  obtain ⟨r1, r2⟩ := rate_arith (B := B) (M := 2 ^ P.smlnsBits) (by exact_mod_cast b1) (by exact_mod_cast b2)
    (by exact_mod_cast a2)
  generalize (2 ^ P.smlnsBits * 2) ^ 128 = X at *
  generalize (2 * B + 2) ^ 128 = Y at *
  generalize Regev.P = p
  constructor
  · calc 369 * (X * p) = 369 * X * p := by ring
      _ ≤ 1000 * Y * p := Nat.mul_le_mul_right _ r1
      _ = _ := by ring
  · calc 1000 * (p * Y) = 1000 * Y * p := by ring
      _ ≤ 375 * X * p := Nat.mul_le_mul_right _ r2
      _ = _ := by ring

theorem num_66 {b t : ℕ} (h : 1000 * b ≤ 631 * t) : b ^ 100 * 2 ^ 66 ≤ t ^ 100 := by
  have k := Nat.pow_le_pow_left h 100
  rw [mul_pow, mul_pow] at k
  have c : 631 ^ 100 * 2 ^ 66 ≤ 1000 ^ 100 := by norm_num
  refine Nat.le_of_mul_le_mul_left (c := 1000 ^ 100) ?_ (by positivity)
  generalize b ^ 100 = X at *
  generalize t ^ 100 = Y at *
  calc 1000 ^ 100 * (X * 2 ^ 66) = (1000 ^ 100 * X) * 2 ^ 66 := by ring
    _ ≤ (631 ^ 100 * Y) * 2 ^ 66 := Nat.mul_le_mul_right _ k
    _ = (631 ^ 100 * 2 ^ 66) * Y := by ring
    _ ≤ 1000 ^ 100 * Y := Nat.mul_le_mul_right _ c

/-- **C91, rare.** With the library's parameters, the smallness proof of a vector whose product always passes its size check
gives up for at most a fraction `2^-66` of the choices of its randomness. -/
theorem C91_rare (hE : LengthOk E) (hB : Function.Bijective (fun s : ZMod Regev.P => s • E.base)) (delta : ℕ)
    (gk : GlobalKey Regev.P 2) (H : List (List (ZMod Regev.P))) {n : ℕ} (hg : Standard gk n) (h5 : 5 ≤ n) (hn : n < 2 ^ 30)
    {P : Params Regev.P} (h : verifierBounds delta gk H = .ok P) {vd : VerifierData (ZMod Regev.P) G E.St}
    {pd : ProverData (ZMod Regev.P)} (S : Setup P vd pd)
    (hp : ∀ C, CoeffsWithin (P.B_smallness.fdiv 128) (product E vd.mer pd.compressed C)) :
    Nat.card {x : SmallCoins P.smlnsBits Regev.P // ¬ ∃ r, proveSmallness E P x.streams vd pd = .ok r} * 2 ^ 66 ≤
      Nat.card (SmallCoins P.smlnsBits Regev.P) := by
  obtain ⟨a1, a2, a3⟩ := C81_setting delta gk H hg h5 hn h
  have hL := lay_of S.layout
  have hGs := S.gs
  have hG : vd.ix.y + 128 ≤ vd.Gs.length := by rw [hL.y]; rw [hL.w] at hGs; omega
  have r := (C91_rate hE hB delta gk H hg h5 hn h hG vd.mer S.compressed hp).1
  have : NeZero Regev.P := ⟨(Fact.out : Regev.P.Prime).ne_zero⟩
  have hc : Nat.card {ρ : TrialCoins P.smlnsBits Regev.P //
        ∃ t, smallLoop E P vd.ix vd.Gs vd.mer pd.compressed (fun _ => ρ.stream) 0 1 = .ok t} +
      Nat.card {ρ : TrialCoins P.smlnsBits Regev.P //
        ¬ ∃ t, smallLoop E P vd.ix vd.Gs vd.mer pd.compressed (fun _ => ρ.stream) 0 1 = .ok t} =
      Nat.card (TrialCoins P.smlnsBits Regev.P) := by
    classical
    rw [← Nat.card_sum]
    exact Nat.card_congr (Equiv.sumCompl _)
  rw [(C91_gives_up hE (by omega) S).1]
  have e : Nat.card (SmallCoins P.smlnsBits Regev.P) = Nat.card (TrialCoins P.smlnsBits Regev.P) ^ 100 := by
    rw [Nat.card_fun]; simp
  rw [e]
  refine num_66 ?_
  generalize Nat.card (TrialCoins P.smlnsBits Regev.P) = T at *
  omega

/-- **C91, round.** A whole round with the library's parameters and honest inputs, in which the functions before the smallness
proof succeed: the round fails for at most a fraction `2^-66` of the choices of the
randomness of the smallness proof. -/
theorem C91_round (hE : LengthOk E) (hB : Function.Bijective (fun s : ZMod Regev.P => s • E.base)) (delta : ℕ)
    (gk : GlobalKey Regev.P 2) (H : List (List (ZMod Regev.P))) {n : ℕ} (hg : Standard gk n) (h5 : 5 ≤ n) (hn : n < 2 ^ 30)
    {P : Params Regev.P} (h : verifierBounds delta gk H = .ok P) (hP : ParamsOk P) {tests : ℕ → Tests}
    (hT : ∀ k, NoFalsePrimes (tests k).probPrime) {fresh : Blocks (ZMod Regev.P)} {inp : RoundInput Regev.P}
    (hI : Honest P inp) {vd vd' : VerifierData (ZMod Regev.P) G E.St} {pd pd' : ProverData (ZMod Regev.P)}
    (S : Start E P inp.sk1 vd pd) (hrec : recordRound E P fresh tests inp vd pd = .ok (vd', pd')) :
    Nat.card {x : SmallCoins P.smlnsBits Regev.P //
        ¬ ∃ r, proveRound E P fresh tests x.streams inp vd pd = .ok r} * 2 ^ 66 ≤
      Nat.card (SmallCoins P.smlnsBits Regev.P) := by
  obtain ⟨P', b, m, h1, h2, -, -, hbc⟩ := C67_model delta gk H hg h5 hn
  rw [h] at h1
  obtain rfl := Res.ok.inj h1
  have S' := (record_blocks hE hP hT hI S hrec).1
  have k := C91_rare hE hB delta gk H hg h5 hn h S' fun C =>
    C91_product hE hP hT hI S (by rw [h2]; exact hg) h5 hn hbc hrec vd'.mer C
  have e : ∀ x : SmallCoins P.smlnsBits Regev.P, proveRound E P fresh tests x.streams inp vd pd =
      proveSmallness E P x.streams vd' pd' := by
    intro x
    rw [proveRound_eq, hrec]
    rfl
  simpa only [e] using k

theorem count_imp {α : Type} [Finite α] {p p' : α → Prop} {t c : ℕ} (h' : Nat.card {a // p' a} * t ≤ c)
    (h : ∀ a, p a → p' a) : Nat.card {a // p a} * t ≤ c := (Nat.mul_le_mul_right t (card_imp h)).trans h'

/-- What the driver program has established when the proofs begin. -/
theorem program_facts {E : Env (ZMod Regev.P) G} (getG getH : ℕ → G)
    (ntlKernel : List (List (ZMod Regev.P)) → List (List (ZMod Regev.P)))
    (hker : ∀ G nr nc, G.length = nr → (∀ r ∈ G, r.length = nc) → LeftKernelBasis (ntlKernel G) G nr nc)
    {n : ℕ} (h5 : 5 ≤ n) (hn : n < 2 ^ 30) {crs : ℕ → ℕ → Elt (ZMod Regev.P) 2} {party : ℕ} {C : MainCoins Regev.P}
    {gk0 gk : GlobalKey Regev.P 2} {sp : SharingParams (ZMod Regev.P)} {inp : RoundInput Regev.P} {P : Params Regev.P}
    {mer : E.St} {rnd0 : Blocks (ZMod Regev.P)} {r : ZMod Regev.P} {vd0 vd : VerifierData (ZMod Regev.P) G E.St}
    {pd : ProverData (ZMod Regev.P)}
    (hnew : GlobalKey.new (setParams 2 n).1 n (setParams 2 n).2.1 (setParams 2 n).2.2 crs = .ok gk0)
    (hsp : SharingParams.make ntlKernel (interval 1 ((gk0.enn : ℤ) + 1)) gk0.tee = .ok sp)
    (hin : mainInputs Regev.delta gk0 party C = .ok (gk, inp, false))
    (hb : verifierBounds Regev.delta gk sp.H = .ok P) (hv : newVerifierData getG getH P mer = .ok vd0)
    (hc : commitKey E inp.sk1 r vd0 (newProverData rnd0) = .ok (vd, pd)) :
    Standard gk n ∧ ParamsOk P ∧ Honest P inp ∧ Start E P inp.sk1 vd pd := by
  have hst0 := new_standard hnew
  have hker' : ∀ G nr nc, G.length = nr → (∀ r ∈ G, r.length = nc) → GeneratesLeftKernel (ntlKernel G) G nr nc :=
    fun G nr nc a b => (hker G nr nc a b).1
  obtain ⟨hs0, hn0, hk, hen, -, -, -⟩ := new_shaped _ _ _ _ _ _ hnew
  obtain ⟨ht, hte, hk0, he0⟩ := new_tee hnew
  have henn := hst0.enn
  have hnP : ((n : ℕ) : ℤ) < Regev.P := by
    have : (2 : ℤ) ^ 30 < (Regev.P : ℕ) := by unfold Regev.P; norm_num
    omega
  obtain ⟨g1, g2, g3, g4, g5⟩ := mainInputs_gk hs0 hn0 hin
  have hst : Standard gk n :=
    ⟨by rw [g1]; exact hst0.kay, by rw [g2]; exact hst0.enn, by rw [g4]; exact hst0.sigma1,
      by rw [g5]; exact hst0.sigma2⟩
  obtain ⟨P', b, m, b0, b1, b2, b3, hbc⟩ := C67_model Regev.delta gk sp.H hst h5 hn
  rw [hb] at b0
  obtain rfl := Res.ok.inj b0
  obtain ⟨hI, -, epk, hpk, hla, ek, ee, et, hsh⟩ := C66_inputs Regev.delta (by unfold Regev.delta; norm_num) _ _ _ _ crs
    gk0 hnew hnP (by omega) ntlKernel hker' sp hsp party _ gk inp hin P b1 b2 b3
  have hstP : Standard P.gk n := by rw [b1]; exact hst
  have htee : 0 < gk0.tee := by
    obtain ⟨gk1, hnew1, -, -, ht1⟩ := standard_exists n h5 hn crs
    rw [hnew] at hnew1
    obtain rfl := Res.ok.inj hnew1
    exact ht1
  obtain ⟨-, -, -, hP, -, -⟩ := C67_bounds hstP h5 hn (by rw [b1]; exact hsh) (by rw [b1, et]; exact htee) hbc
  obtain ⟨-, -, -, -, -, -, -, -, -, -, -, -, hkk⟩ := standard_facts hstP h5 hn hbc
  have hennP := hstP.enn
  have htn : 2 * P.gk.tee ≤ P.gk.enn := by
    rw [b1, et, ee]
    exact new_tee_half hnew
  obtain ⟨v1, v2, p2, h1, h2, S, hlen⟩ := C64_start E P getG getH mer rnd0 inp.sk1 r hI.sk1 (by omega) (by
    obtain ⟨ix, hix⟩ := (C39_defined P.gk.kay 2 P.gk.enn P.gk.tee).2 (by omega)
    unfold setIndexes at hix
    simp only at hix
    split at hix
    · assumption
    · cases hix)
  rw [hv] at h1
  obtain rfl := Res.ok.inj h1
  rw [hc] at h2
  obtain ⟨rfl, rfl⟩ := Prod.mk.inj (Res.ok.inj h2)
  exact ⟨hst, hP, hI, S⟩

/-- `C91_round` when the challenges of the round are answered with given bytes. -/
theorem round_answered (hE : LengthOk E) (hB : Function.Bijective (fun s : ZMod Regev.P => s • E.base)) {delta : ℕ}
    {gk : GlobalKey Regev.P 2} {H : List (List (ZMod Regev.P))} {n : ℕ} (hg : Standard gk n) (h5 : 5 ≤ n) (hn : n < 2 ^ 30)
    {P : Params Regev.P} (h : verifierBounds delta gk H = .ok P) (hP : ParamsOk P) {tests : ℕ → Tests}
    (hT : ∀ k, NoFalsePrimes (tests k).probPrime) {fresh : Blocks (ZMod Regev.P)} {inp : RoundInput Regev.P}
    (hI : Honest P inp) {vd : VerifierData (ZMod Regev.P) G E.St} {pd : ProverData (ZMod Regev.P)}
    (S : Start E P inp.sk1 vd pd) (y : RoundBytes P.gk) {vd' : VerifierData (ZMod Regev.P) G (answeringRound E y).St}
    {pd' : ProverData (ZMod Regev.P)}
    (hrec : recordRound (answeringRound E y) P fresh tests inp vd pd = .ok (vd', pd')) :
    Nat.card {x : SmallCoins P.smlnsBits Regev.P //
        ¬ ∃ r, proveRound (answeringRound E y) P fresh tests x.streams inp vd pd = .ok r} * 2 ^ 66 ≤
      Nat.card (SmallCoins P.smlnsBits Regev.P) := by
  have S' : Start (answeringRound E y) P inp.sk1 vd pd :=
    ⟨S.setup, S.linEmpty, S.linKeys, S.quadKeys, S.keyLength, S.key⟩
  have hB' : Function.Bijective (fun s : ZMod Regev.P => s • (answeringRound E y).base) := hB
  have hE' : LengthOk (answeringRound E y) := answering_length (answering_length (answering_length (answering_length (answering_length
    (answering_length hE _ _) _ _) _ _) _ _) _ _) _ _
  exact C91_round (E := answeringRound E y) (vd := vd) (vd' := vd') hE' hB' delta gk H hg h5 hn h hP hT hI S' hrec

/-- **C91, run.** A run of the driver program with its own parameters, 33 or more parties and dimensions that are multiples of
4.  For all but a fraction `2^-100` of the random bits of the keys and ciphertexts everything up to the proofs succeeds,
without a decryption error; for all but a fraction `6·2^-121` of the bytes of the challenge matrices the proof functions before
the smallness proof succeed, and then, for all but a fraction `2^-66` of the randomness of the smallness proof, the whole round
succeeds. -/
theorem C91_run (hE : LengthOk E) (hB : Function.Bijective (fun s : ZMod Regev.P => s • E.base)) (getG getH : ℕ → G)
    (ntlKernel : List (List (ZMod Regev.P)) → List (List (ZMod Regev.P)))
    (hker : ∀ G nr nc, G.length = nr → (∀ r ∈ G, r.length = nc) → LeftKernelBasis (ntlKernel G) G nr nc)
    (n : ℕ) (h33 : 33 ≤ n) (hn : n < 2 ^ 30) (h4 : 4 ∣ (setParams 2 n).1 ∧ 4 ∣ n)
    (crs : ℕ → ℕ → Elt (ZMod Regev.P) 2) (party : ℕ) (hparty : party < n) (secret : ZMod Regev.P)
    (shares : ℕ → ZMod Regev.P) (mer : E.St) (rnd0 fresh : Blocks (ZMod Regev.P)) (r : ZMod Regev.P)
    {tests : ℕ → Tests} (hT : ∀ k, NoFalsePrimes (tests k).probPrime) :
    ∃ gk0, GlobalKey.new (setParams 2 n).1 n (setParams 2 n).2.1 (setParams 2 n).2.2 crs = .ok gk0 ∧
      Nat.card {x : ProgramBits gk0 // ¬ ∃ sp gk inp P vd0 vd pd,
        SharingParams.make ntlKernel (interval 1 ((gk0.enn : ℤ) + 1)) gk0.tee = .ok sp ∧
        mainInputs Regev.delta gk0 party (coinsOf secret shares x) = .ok (gk, inp, false) ∧
        verifierBounds Regev.delta gk sp.H = .ok P ∧ newVerifierData getG getH P mer = .ok vd0 ∧
        commitKey E inp.sk1 r vd0 (newProverData rnd0) = .ok (vd, pd) ∧
        Nat.card {y : RoundBytes P.gk // ¬ ∃ r', recordRound (answeringRound E y) P fresh tests inp vd pd = .ok r' ∧
          Nat.card {z : SmallCoins P.smlnsBits Regev.P //
              ¬ ∃ out, proveRound (answeringRound E y) P fresh tests z.streams inp vd pd = .ok out} * 2 ^ 66 ≤
            Nat.card (SmallCoins P.smlnsBits Regev.P)} * 2 ^ 121 ≤
          6 * Nat.card (RoundBytes P.gk)} * 2 ^ 100 ≤ Nat.card (ProgramBits gk0) := by
  obtain ⟨gk0, hnew, hbad⟩ := C90_run hE getG getH ntlKernel hker (verifierBounds Regev.delta) n h33 hn
    (precise_bounds n (by omega) hn) h4 crs party hparty secret shares mer rnd0 fresh r hT
  refine ⟨gk0, hnew, count_imp hbad fun x hx hc => hx ?_⟩
  obtain ⟨sp, gk, inp, P, vd0, vd, pd, a1, a2, a3, a4, a5, a6⟩ := hc
  refine ⟨sp, gk, inp, P, vd0, vd, pd, a1, a2, a3, a4, a5,
    count_imp a6 fun y hy hc => hy ?_⟩
  obtain ⟨⟨vd', pd'⟩, hr⟩ := hc
  refine ⟨(vd', pd'), hr, ?_⟩
  obtain ⟨hst, hP, hI, S⟩ := program_facts getG getH ntlKernel hker (by omega) hn hnew a1 a2 a3 a4 a5
  exact round_answered hE hB hst (by omega) hn a3 hP hT hI S y hr

end

/-! ### Concrete cases -/

/-- One trial, for a vector that is not zero. -/
example : LengthOk demoE ∧ Function.Bijective (fun s : ZMod 10007 => s • demoE.base) ∧
    2 ^ (maskP.smlnsBits + 1) ≤ 10007 ∧ 0 ≤ maskP.B_smallness ∧
    maskP.B_smallness + maskP.B_smallness.fdiv 128 < 2 ^ maskP.smlnsBits ∧ demoIx.y + 128 ≤ demoV.Gs.length ∧
    maskW.length = 1300 ∧ ∀ C, CoeffsWithin (maskP.B_smallness.fdiv 128) (product demoE demoV.mer maskW C) :=
  ⟨demoE_length, maskE_base, by decide, by decide, by decide, by decide +kernel, by decide +kernel,
    fun _ => within_of_l1 _ _ (by decide +kernel) _ (by decide +kernel) _⟩

/-- The hypotheses of `C91_round` are met, and with it those of `C91_product`, `C91_rate` and `C91_rare`, in a run with 256 parties. -/
example : ∃ (gk : GlobalKey Regev.P 2) (H : List (List (ZMod Regev.P))) (P : Params Regev.P) (inp : RoundInput Regev.P)
    (fresh : Blocks (ZMod Regev.P)) (tests : ℕ → Tests)
    (vd vd' : VerifierData (ZMod Regev.P) (ZMod Regev.P) zeroEnv.St) (pd pd' : ProverData (ZMod Regev.P)),
    LengthOk zeroEnv ∧ Function.Bijective (fun s : ZMod Regev.P => s • zeroEnv.base) ∧ Standard gk 256 ∧
      verifierBounds Regev.delta gk H = .ok P ∧ ParamsOk P ∧ (∀ k, NoFalsePrimes (tests k).probPrime) ∧ Honest P inp ∧
      Start zeroEnv P inp.sk1 vd pd ∧ recordRound zeroEnv P fresh tests inp vd pd = .ok (vd', pd') := by
  obtain ⟨k, hk⟩ := kernel_exists (ZMod Regev.P)
  have hT : ∀ k : ℕ, NoFalsePrimes ((fun _ => ⟨fun _ => false, fun _ => false⟩ : ℕ → Tests) k).probPrime :=
    fun _ p hp => by cases hp
  obtain ⟨gk0, sp, gk, inp, P, vd0, vd, pd, vd2, pd2, b, m, hnew, -, hin, b0, -, -, hr, hst, -, hP, hI, S, -⟩ :=
    unit_round (E := zeroEnv) (fun _ _ _ => rfl) (fun i => (i : ZMod Regev.P)) (fun i => (2 * i + 1 : ℕ)) k hk _ 256
      (by norm_num) (by norm_num) (precise_bounds 256 (by norm_num) (by norm_num))
      ⟨by rw [C66_good_dimension.1]; norm_num, by norm_num⟩
      (fun i j => ⟨![(i : ZMod Regev.P), (j : ZMod Regev.P)]⟩) []
      ⟨1, 2, 3, 4, 5, 6, 7, 8, 9, 10, 11, 12, 13, 14, 15, 16, 17, 18, 19, 20, 21, 22, 23, 24, 25, 26, 27⟩
      ⟨1, 2, 3, 4, 5, 6, 7, 8, 9, 10, 11, 12, 13, 14, 15, 16, 17, 18, 19, 20, 21, 22, 23, 24, 25, 26, 27⟩ 7 hT
  have hg : P.gk = gk := by
    unfold verifierBounds at b0
    simp only at b0
    split at b0
    · cases b0
    · obtain rfl := Res.ok.inj b0
      rfl
  rw [proveRound_eq] at hr
  obtain ⟨⟨vd', pd'⟩, hrec, -⟩ := Res.bind_eq_ok.1 hr
  exact ⟨gk, sp.H, P, inp, _, _, vd, vd', pd, pd', fun st l n => List.length_replicate,
    ⟨fun a b h => by simpa [zeroEnv] using h, fun a => ⟨a, by simp [zeroEnv]⟩⟩, hg ▸ hst, b0, hP, hT, hI, S, hrec⟩

end Verif.Props
