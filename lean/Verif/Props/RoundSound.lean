/-
C73: what a complete round shows.  The linear constraints that a round records hold for some values if and only if
seven batched equations and the parity checks hold; and if, besides, the norm constraints hold and the challenges are
good for these values, then the statement is true: the ciphertexts decrypt to the committed plaintexts, the new ciphertext is well
formed and has small randomness and noise, the public key belongs to a short secret key, and the plaintexts of the new
ciphertext are shares of the secret that the old ones reconstruct to.  The noise of the decryption is bounded only if
the first norm constraint holds as well, which the final proof does not enforce (C63).

`GoodRound` (Spec/RoundSound.lean) is a conjunction of events that each exclude only few challenges: C69 counts those
excluded for the batches, C68 those for the smallness test, and C70 those for the compressing matrices;
`C73_fooled_left`, `C73_fooled_right` and `C73_fooled_small` restate the last two counts for the components of
`GoodRound`.
-/
import Verif.Lemmas.RoundSound
import Verif.Props.Batch
import Verif.Props.Compress
import Verif.Props.Smallness

namespace Verif.Props
open Regev Spec
open scoped BigOperators

section
variable {q : ℕ} [Fact q.Prime] {G : Type} [AddCommGroup G] [Module (ZMod q) G]

/-- **C73.** The linear constraints that a round records hold for `x` iff the seven batched equations and the parity
checks hold, with the challenges that come out of the transcript; the ten norm constraints and a short masked reply
are recorded. -/
theorem C73_meaning {E : Env (ZMod q) G} (hE : LengthOk E) {P : Params q} (hP : ParamsOk P)
    {tests : ℕ → Tests} (hT : ∀ k, NoFalsePrimes (tests k).probPrime) {fresh : Blocks (ZMod q)}
    {small : ℕ → SmallRnd q} {inp : RoundInput q} (hI : Sized P inp)
    {vd vd' : VerifierData (ZMod q) G E.St} {pd pd' : ProverData (ZMod q)} (S : Setup P vd pd)
    (hempty : ∀ c ∈ vd.linConstr, c = ⟨[], 0⟩)
    (h : proveRound E P fresh tests small inp vd pd = .ok (vd', pd')) (C : RoundChallenges q E.St)
    (hC : roundChallenges E vd.mer P.gk.kay P.gk.enn P.gk.tee vd'.com vd'.z = C) :
    (∀ x, (∀ c ∈ vd'.linConstr, LinSat c x) ↔
      batch 128 C.decX (roundEqs P inp vd.ix x C vd'.z).dec = 0 ∧
      batch 128 C.enc.x1 (roundEqs P inp vd.ix x C vd'.z).enc1 = 0 ∧
      batch 128 C.enc.x2 (roundEqs P inp vd.ix x C vd'.z).enc2 = 0 ∧
      batch 128 C.enc.x3 (roundEqs P inp vd.ix x C vd'.z).enc3 = 0 ∧
      batch 128 C.key.x1 (roundEqs P inp vd.ix x C vd'.z).key1 = 0 ∧
      batch 128 C.key.x2 (roundEqs P inp vd.ix x C vd'.z).key2 = 0 ∧
      batch 64 C.smallX (roundEqs P inp vd.ix x C vd'.z).small = 0 ∧
      ∀ y ∈ Spec.matVec P.H (resharing inp.lagrange vd.ix.pt1 vd.ix.pt2 P.gk.enn x), y = 0) ∧
    (∀ k < 10, NormRecorded P vd'.normConstr k) ∧ vd'.normConstr.length = 10 ∧
    vd'.z.length = 64 ∧ lInftyNorm vd'.z ≤ P.B_smallness ∧ vd'.mer = C.st := by
  obtain ⟨a1, a2, a3, a4, a5, -, a7, -⟩ := round_meaning hE hP hT hI S hempty h C hC
  exact ⟨a1, a2, a3, a4, a5, a7⟩

/-! ### Vectors read from the values -/

theorem coeffs_range_mem {n : ℕ} {v : ℕ → Elt (ZMod q) 2} {s : ZMod q} (h : s ∈ coeffs ((List.range n).map v)) :
    ∃ i < n, ∃ c : Fin 2, s = (v i).c c := by
  unfold coeffs at h
  obtain ⟨e, he, hs⟩ := List.mem_flatMap.1 h
  obtain ⟨i, hi, rfl⟩ := List.mem_map.1 he
  obtain ⟨c, hc⟩ := (List.mem_ofFn' _ _).1 hs
  exact ⟨i, List.mem_range.1 hi, c, hc.symm⟩

theorem reads_range (x : ℕ → ZMod q) (off n : ℕ) : Reads x off (coeffs ((List.range n).map (eltAt x off))) := by
  intro k a hk
  have hl := (List.getElem?_eq_some_iff.1 hk).1
  rw [coeffs_length, List.length_map, List.length_range] at hl
  have he : ((List.range n).map (eltAt x off))[k / 2]? = some (eltAt x off (k / 2)) := by
    rw [List.getElem?_map, List.getElem?_range (by omega)]
    rfl
  have := coeffs_get _ (k / 2) ⟨k % 2, by omega⟩ _ he
  have e : 2 * (k / 2) + k % 2 = k := by omega
  simp only [e] at this
  rw [this] at hk
  have hk := Option.some.inj hk
  rw [← hk]
  unfold eltAt
  simp only
  congr 1
  omega

theorem reads_scalars (x : ℕ → ZMod q) (off n : ℕ) : Reads x off ((List.range n).map fun i => x (off + i)) := by
  intro k a hk
  have hl := (List.getElem?_eq_some_iff.1 hk).1
  rw [List.length_map, List.length_range] at hl
  rw [List.getElem?_map, List.getElem?_range hl] at hk
  exact Option.some.inj hk

theorem getD_scalars (n : ℕ) (u : ℕ → ZMod q) {i : ℕ} (hi : i < n) : ((List.range n).map u).getD i 0 = u i := by
  rw [List.getD_eq_getElem?_getD, List.getElem?_map, List.getElem?_range hi]
  rfl

theorem within_of {κ n : ℕ} {B : ℤ} {v u : ℕ → Elt (ZMod q) 2} (h : NotFooled κ n B v u)
    (hu : normSq (coeffs ((List.range 128).map u)) ≤ B ^ 2) : Within κ B ((List.range n).map v) := by
  intro s hs
  obtain ⟨i, hi, c, rfl⟩ := coeffs_range_mem hs
  exact h hu i hi c

end

section
variable {G : Type} [AddCommGroup G] [Module (ZMod Regev.P) G]

/-- **C73.** If the constraints of a round hold for the values `x` (of the norm constraints, all but the first) and the
challenges are good for them, then the statement is true, with the vectors that are read from `x`; the decryption
noise is small if the first norm constraint holds as well. -/
theorem C73_round {E : Env (ZMod Regev.P) G} (hE : LengthOk E) {P : Params Regev.P} {b m : ℤ} {n : ℕ}
    (hg : Standard P.gk n) (h5 : 5 ≤ n) (hn : n < 2 ^ 28) (hb : BoundsClose P b m) (hP : ParamsOk P)
    {tests : ℕ → Tests} (hT : ∀ k, NoFalsePrimes (tests k).probPrime) {fresh : Blocks (ZMod Regev.P)}
    {small : ℕ → SmallRnd Regev.P} {inp : RoundInput Regev.P} (hI : Sized P inp)
    {vd vd' : VerifierData (ZMod Regev.P) G E.St} {pd pd' : ProverData (ZMod Regev.P)} (S : Setup P vd pd)
    (hempty : ∀ c ∈ vd.linConstr, c = ⟨[], 0⟩)
    (h : proveRound E P fresh tests small inp vd pd = .ok (vd', pd'))
    (x : ℕ → ZMod Regev.P) (hlin : ∀ c ∈ vd'.linConstr, LinSat c x)
    (hnorm : ∀ k (hk : k < vd'.normConstr.length), 0 < k → QuadSat vd'.normConstr[k] x x) {κ : ℕ}
    (good : GoodRound P inp vd.ix x (roundChallenges E vd.mer P.gk.kay P.gk.enn P.gk.tee vd'.com vd'.z) vd'.z κ) :
    ∃ sk1 pt1 dNoise r pt2 eNoise1 eNoise2 sk2 kNoise,
      RoundTrue P inp vd.ix x κ sk1 pt1 dNoise r pt2 eNoise1 eNoise2 sk2 kNoise ∧
      ((∀ hk : 0 < vd'.normConstr.length, QuadSat vd'.normConstr[0] x x) →
        Within κ (digitsBound P 0 1) dNoise) := by
  obtain ⟨C, hC⟩ : ∃ C, roundChallenges E vd.mer P.gk.kay P.gk.enn P.gk.tee vd'.com vd'.z = C := ⟨_, rfl⟩
  rw [hC] at good
  obtain ⟨a1, a2, a3, a4, a5, a6, -, a8, a9⟩ := round_meaning hE hP hT hI S hempty h C hC
  obtain ⟨b0, b2, b4, b6, b8, b10, b12, b14⟩ := (a1 x).1 hlin
  obtain ⟨-, -, -, -, -, -, -, hr8, hsm, -⟩ := standard_facts hg h5 (by omega) hb
  have hr := hP.radix
  have hL := lay_of S.layout
  have nb := fun k hk => (normBound_range hg h5 (by omega) hb k hk).1
  rw [C69_good good.decX] at b0
  rw [C69_good good.encX1] at b2
  rw [C69_good good.encX2] at b4
  rw [C69_good good.encX3] at b6
  rw [C69_good good.keyX1] at b8
  rw [C69_good good.keyX2] at b10
  rw [C69_good good.smallX] at b12
  -- the entries are small
  have hz := (lInfty_le vd'.z _ hsm).1 a5
  have hx : ∀ i < 2600, |(x i).valMinAbs| ≤ 2 * P.B_smallness := by
    refine good.smallR fun j hj c => ?_
    have e : (∑ i ∈ Finset.range 1300, eltAt x 0 i * C.smallR i j) + eltAt x vd.ix.y j = vd'.z.getD j 0 := by
      have e := b12 j hj
      unfold roundEqs at e
      dsimp only at e
      rw [sub_eq_zero] at e
      rw [add_comm]
      convert e using 2
    rw [e]
    refine hz _ ?_
    have hj' : vd'.z[j]? = some (vd'.z.getD j 0) := by
      rw [List.getD_eq_getElem?_getD, List.getElem?_eq_getElem (by omega)]
      rfl
    exact List.mem_of_getElem? (coeffs_get _ j c _ hj')
  have hne : ∀ k < 10, (0 < k ∨ ∀ hk : 0 < vd'.normConstr.length, QuadSat vd'.normConstr[0] x x) →
      NormExact P x k := by
    intro k hk hq
    refine (C67_no_wrap hg h5 hn hb x k hk ?_ fun i _ hi => hx i (by omega)).1
    have e : vd'.normConstr[k]'(by omega) = ⟨List.range' (260 * k) 260, ((normBound P k ^ 2 : ℤ) : ZMod Regev.P)⟩ :=
      Option.some.inj ((List.getElem?_eq_getElem (by omega)).symm.trans (a2 k hk))
    rw [← e]
    by_cases h0 : 0 < k
    · exact hnorm k _ h0
    · obtain rfl : k = 0 := by omega
      exact hq.resolve_left (by omega) _
  refine ⟨(List.range P.gk.kay).map (eltAt x vd.ix.sk1), (List.range P.gk.tee).map fun i => x (vd.ix.pt1 + i),
    (List.range P.gk.tee).map (decNoise P.delta P.gk.kay inp.ctMat inp.ctVec vd.ix.sk1 vd.ix.pt1 x),
    (List.range P.gk.kay).map (eltAt x vd.ix.r), (List.range P.gk.enn).map fun i => x (vd.ix.pt2 + i),
    (List.range P.gk.kay).map (encNoise1 P.gk.kay P.gk.A inp.ct1 vd.ix.r x),
    (List.range P.gk.enn).map (encNoise2 P.delta P.gk.kay P.gk.B inp.ct2 vd.ix.r vd.ix.pt2 x),
    (List.range P.gk.kay).map (eltAt x vd.ix.sk2),
    (List.range P.gk.kay).map (keyNoise P.gk.kay P.gk.A (P.gk.B.getD inp.pkNum []) vd.ix.sk2 x), ?_, ?_⟩
  · constructor
    · simp
    · exact ⟨reads_range _ _ _, reads_scalars _ _ _, reads_range _ _ _, reads_scalars _ _ _, reads_range _ _ _⟩
    · intro i hi
      rw [getD_scalars _ _ hi, getD_map_range _ _ hi, Finset.sum_congr rfl fun k hk => by
        rw [getD_map_range _ _ (Finset.mem_range.1 hk)]]
      unfold decNoise
      abel
    · intro i hi
      rw [getD_map_range _ _ hi, Finset.sum_congr rfl fun k hk => by
        rw [getD_map_range _ _ (Finset.mem_range.1 hk)]]
      unfold encNoise1
      abel
    · intro i hi
      rw [getD_scalars _ _ hi, getD_map_range _ _ hi, Finset.sum_congr rfl fun k hk => by
        rw [getD_map_range _ _ (Finset.mem_range.1 hk)]]
      unfold encNoise2
      abel
    · intro i hi
      rw [getD_map_range _ _ hi, Finset.sum_congr rfl fun k hk => by
        rw [getD_map_range _ _ (Finset.mem_range.1 hk)]]
      unfold keyNoise
      abel
    · have e := resharing_eq (x := x) (a := vd.ix.pt1) (b := vd.ix.pt2) (lagrange := inp.lagrange)
        (enn := P.gk.enn) (tee := P.gk.tee)
        (pt1 := (List.range P.gk.tee).map fun i => x (vd.ix.pt1 + i))
        (pt2 := (List.range P.gk.enn).map fun i => x (vd.ix.pt2 + i)) a8 (by simp) (by simp)
        (reads_scalars _ _ _) (reads_scalars _ _ _)
      rw [← e]
      exact b14
    · refine within_of good.encR3 (blockIs_norm ⟨hne 2 (by norm_num) (Or.inl (by norm_num)), fun j hj => ?_⟩)
      have := sub_eq_zero.1 (b6 j hj)
      rw [hL.rComp] at this
      exact this
    · refine within_of good.encR1 (digitsOf_norm ⟨hne 3 (by norm_num) (Or.inl (by norm_num)), hne 4 (by norm_num) (Or.inl (by norm_num)), fun j hj => ?_⟩ (by omega) (nb 3 (by norm_num)) (nb 4 (by norm_num)))
      have := sub_eq_zero.1 (b2 j hj)
      rw [hL.eComp1Hi, hL.eComp1Lo] at this
      exact this
    · refine within_of good.encR2 (digitsOf_norm ⟨hne 5 (by norm_num) (Or.inl (by norm_num)), hne 6 (by norm_num) (Or.inl (by norm_num)), fun j hj => ?_⟩ (by omega) (nb 5 (by norm_num)) (nb 6 (by norm_num)))
      have := sub_eq_zero.1 (b4 j hj)
      rw [hL.eComp2Hi, hL.eComp2Lo] at this
      exact this
    · refine within_of good.keyR2 (blockIs_norm ⟨hne 7 (by norm_num) (Or.inl (by norm_num)), fun j hj => ?_⟩)
      have := sub_eq_zero.1 (b10 j hj)
      rw [hL.sk2Comp] at this
      exact this
    · refine within_of good.keyR1 (digitsOf_norm ⟨hne 8 (by norm_num) (Or.inl (by norm_num)), hne 9 (by norm_num) (Or.inl (by norm_num)), fun j hj => ?_⟩ (by omega) (nb 8 (by norm_num)) (nb 9 (by norm_num)))
      have := sub_eq_zero.1 (b8 j hj)
      rw [hL.kCompHi, hL.kCompLo] at this
      exact this
  · intro h0
    refine within_of good.decR (digitsOf_norm ⟨hne 0 (by norm_num) (Or.inr h0), hne 1 (by norm_num) (Or.inl (by norm_num)), fun j hj => ?_⟩ (by omega) (nb 0 (by norm_num)) (nb 1 (by norm_num)))
    have := sub_eq_zero.1 (b0 j hj)
    rw [hL.dCompHi, hL.dCompLo] at this
    exact this

end

/-! ### How many challenges are not good -/

section
variable {q : ℕ} [Fact q.Prime]

/-- **C73.** A vector is compressed with a matrix on its right (decryption noise, key-generation noise, secret key): all
but a fraction `fewOf 128 κ / 2^128` of the challenge bytes give a matrix that is not fooled. -/
theorem C73_fooled_left (κ n : ℕ) (B : ℤ) (v : ℕ → Elt (ZMod q) 2) :
    Nat.card {buf : Fin (challengeBytes n 128) → Fin 256 // ¬ NotFooled κ n B v fun j =>
      ∑ i ∈ Finset.range n, v i * ternaryOf (bufBytes buf) n 128 i j} * 2 ^ 128 ≤
      256 ^ challengeBytes n 128 * fewOf 128 κ := by
  by_cases hb : ∃ i < n, ∃ c : Fin 2, 4 * B ^ 2 < (κ + 1) * ((v i).c c).valMinAbs ^ 2
  · obtain ⟨i, hi, c, hbig⟩ := hb
    refine fixed_left n κ v B i hi c hbig _ fun buf hbuf => ?_
    unfold NotFooled at hbuf
    push Not at hbuf
    exact hbuf.1
  · push Not at hb
    have : IsEmpty {buf : Fin (challengeBytes n 128) → Fin 256 // ¬ NotFooled κ n B v fun j =>
        ∑ i ∈ Finset.range n, v i * ternaryOf (bufBytes buf) n 128 i j} := ⟨fun a => a.2 fun _ => hb⟩
    rw [Nat.card_of_isEmpty, zero_mul]
    exact Nat.zero_le _

/-- **C73.** The same for a matrix on the left of the vector (the three vectors of the encryption proof), for vectors
whose length is a multiple of four. -/
theorem C73_fooled_right (κ n : ℕ) (h4 : 4 ∣ n) (B : ℤ) (v : ℕ → Elt (ZMod q) 2) :
    Nat.card {buf : Fin (challengeBytes 128 n) → Fin 256 // ¬ NotFooled κ n B v fun j =>
      ∑ i ∈ Finset.range n, ternaryOf (bufBytes buf) 128 n j i * v i} * 2 ^ 128 ≤
      256 ^ challengeBytes 128 n * fewOf 128 κ := by
  by_cases hb : ∃ i < n, ∃ c : Fin 2, 4 * B ^ 2 < (κ + 1) * ((v i).c c).valMinAbs ^ 2
  · obtain ⟨i, hi, c, hbig⟩ := hb
    refine fixed_right n κ h4 v B i hi c hbig _ fun buf hbuf => ?_
    unfold NotFooled at hbuf
    push Not at hbuf
    exact hbuf.1
  · push Not at hb
    have : IsEmpty {buf : Fin (challengeBytes 128 n) → Fin 256 // ¬ NotFooled κ n B v fun j =>
        ∑ i ∈ Finset.range n, ternaryOf (bufBytes buf) 128 n j i * v i} := ⟨fun a => a.2 fun _ => hb⟩
    rw [Nat.card_of_isEmpty, zero_mul]
    exact Nat.zero_le _

/-- **C73.** For all but a fraction `2^-64` of the challenge bytes of the smallness proof, a short masked reply means
that the 2600 entries are at most twice the bound. -/
theorem C73_fooled_small (B : ℤ) (hB : 0 ≤ B) (x : ℕ → ZMod q) (y : ℕ) :
    Nat.card {buf : Fin (challengeBytes 1300 64) → Fin 256 // ¬ ((∀ j < 64, ∀ c : Fin 2,
      |(((∑ i ∈ Finset.range 1300, eltAt x 0 i * ternaryOf (bufBytes buf) 1300 64 i j) + eltAt x y j).c c).valMinAbs|
        ≤ B) → ∀ i < 2600, |(x i).valMinAbs| ≤ 2 * B)} * 2 ^ 64 ≤ 256 ^ challengeBytes 1300 64 := by
  by_cases hb : ∃ i < 2600, 2 * B < |(x i).valMinAbs|
  · obtain ⟨i, hi, hbig⟩ := hb
    have key := C68_soundness 1300 64 (by norm_num) (by norm_num) ((List.range 1300).map (eltAt x 0))
      ((List.range 64).map (eltAt x y)) (by simp) (by simp) B hB (i / 2) (by omega) ⟨i % 2, by omega⟩ (by
        rw [getD_map_range _ _ (by omega)]
        unfold eltAt
        have e : 0 + 2 * (i / 2) + i % 2 = i := by omega
        simp only [e]
        exact hbig)
    refine le_trans (Nat.mul_le_mul_right _ (card_imp fun buf hbuf => ?_)) key
    rw [replyShort_iff (by norm_num) (by norm_num) (by norm_num) (by simp) (by simp) hB]
    rw [Classical.not_imp] at hbuf
    intro j hj c
    have e := hbuf.1 j hj c
    rw [getD_map_range _ _ hj, Finset.sum_congr rfl fun k hk => by
      rw [getD_map_range _ _ (Finset.mem_range.1 hk)]]
    exact e
  · push Not at hb
    have : IsEmpty {buf : Fin (challengeBytes 1300 64) → Fin 256 // ¬ ((∀ j < 64, ∀ c : Fin 2,
      |(((∑ i ∈ Finset.range 1300, eltAt x 0 i * ternaryOf (bufBytes buf) 1300 64 i j) + eltAt x y j).c c).valMinAbs|
        ≤ B) → ∀ i < 2600, |(x i).valMinAbs| ≤ 2 * B)} := ⟨fun a => a.2 fun _ => hb⟩
    rw [Nat.card_of_isEmpty, zero_mul]
    exact Nat.zero_le _

end
end Verif.Props
