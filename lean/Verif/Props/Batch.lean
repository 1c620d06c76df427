/-
C69: how much a batched equation shows.
-/
import Verif.Spec.Batch
import Verif.Lemmas.Batch
import Verif.Lemmas.Scalar
import Verif.Props.RegevProofs
import Verif.Props.Main

namespace Verif.Props
open Spec Regev Polynomial
open scoped BigOperators

section
variable {q : ℕ} [Fact q.Prime]

/-- **C69.** For any equations over the ring, at most `(m-1)·q` of the `q²` challenges are bad. -/
theorem C69_bad (hq : q ≠ 2) (m : ℕ) (d : ℕ → Elt (ZMod q) 2) : (BadBatch m d).ncard ≤ (m - 1) * q := by
  by_cases h : ∃ j < m, d j ≠ 0
  · have e : BadBatch m d = {ξ | batch m ξ d = 0} := by
      ext ξ
      exact ⟨fun hx => hx.2, fun hx => ⟨h, hx⟩⟩
    rw [e]
    exact batch_card hq m d h
  · have e : BadBatch m d = ∅ := by
      ext ξ
      exact ⟨fun hx => absurd hx.1 h, fun hx => absurd hx (Set.notMem_empty _)⟩
    rw [e, Set.ncard_empty]
    exact Nat.zero_le _

/-- **C69.** A challenge that is not bad: the batched equation holds exactly if all the equations hold. -/
theorem C69_good {m : ℕ} {d : ℕ → Elt (ZMod q) 2} {ξ : Elt (ZMod q) 2} (h : ξ ∉ BadBatch m d) :
    batch m ξ d = 0 ↔ ∀ j < m, d j = 0 := by
  constructor
  · intro hb j hj
    by_contra hd
    exact h ⟨⟨j, hj, hd⟩, hb⟩
  · intro hd
    unfold batch
    exact Finset.sum_eq_zero fun j hj => by rw [hd j (Finset.mem_range.1 hj), mul_zero]

theorem elementOf_c (bytes : Bytes) (k : Fin 2) :
    (elementOf bytes : Elt (ZMod q) 2).c k = ((Sc.leVal ((bytes.drop (32 * k.val)).take 32) : ℕ) : ZMod q) := rfl

/-- An element comes from few byte strings. -/
theorem elementOf_card (S : Set (Elt (ZMod q) 2)) :
    Nat.card {buf : Fin 64 → Fin 256 // elementOf (bufBytes buf) ∈ S} ≤ S.ncard * (256 ^ 32 / q + 1) ^ 2 := by
  have hq0 : 0 < q := (Fact.out : q.Prime).pos
  have hlen : ∀ buf : Fin 64 → Fin 256, (bufBytes buf).length = 64 := fun buf => by simp [bufBytes]
  have hpart : ∀ (buf : Fin 64 → Fin 256) (k : Fin 2), (((bufBytes buf).drop (32 * k.val)).take 32).length = 32 := by
    intro buf k
    rw [List.length_take, List.length_drop, hlen]
    omega
  have hlt : ∀ (buf : Fin 64 → Fin 256) (k : Fin 2),
      Sc.leVal (((bufBytes buf).drop (32 * k.val)).take 32) / q < 256 ^ 32 / q + 1 := by
    intro buf k
    have h := Sc.leVal_lt (((bufBytes buf).drop (32 * k.val)).take 32)
    rw [hpart] at h
    exact Nat.lt_succ_of_le (Nat.div_le_div_right h.le)
  have hfin : Finite S := Set.toFinite S
  have hle := Nat.card_le_card_of_injective
    (fun buf : {buf : Fin 64 → Fin 256 // elementOf (bufBytes buf) ∈ S} =>
      ((⟨_, buf.2⟩ : S), fun k : Fin 2 => (⟨_, hlt buf.1 k⟩ : Fin (256 ^ 32 / q + 1)))) (by
    rintro ⟨a, ha⟩ ⟨b, hb⟩ hab
    obtain ⟨h1, h2⟩ := Prod.mk.inj hab
    have h1 := congrArg Subtype.val h1
    simp only at h1
    have hv : ∀ k : Fin 2, ((bufBytes a).drop (32 * k.val)).take 32 = ((bufBytes b).drop (32 * k.val)).take 32 := by
      intro k
      apply Sc.leVal_inj _ _ (by rw [hpart, hpart])
      have e1 := congrArg (fun e : Elt (ZMod q) 2 => e.c k) h1
      simp only [elementOf_c] at e1
      rw [ZMod.natCast_eq_natCast_iff'] at e1
      have e2 := congrArg Fin.val (congrFun h2 k)
      simp only at e2
      rw [← Nat.div_add_mod (Sc.leVal (((bufBytes a).drop (32 * k.val)).take 32)) q, e1, e2, Nat.div_add_mod]
    have e : bufBytes a = bufBytes b := by
      have s : ∀ l : Bytes, l.length = 64 → l = (l.drop (32 * (0 : Fin 2).val)).take 32 ++
          (l.drop (32 * (1 : Fin 2).val)).take 32 := by
        intro l hl
        have e1 : (l.drop (32 * (1 : Fin 2).val)).take 32 = l.drop 32 := by
          apply List.take_of_length_le
          rw [List.length_drop, hl]
          decide
        rw [e1]
        show l = (l.drop 0).take 32 ++ l.drop 32
        rw [List.drop_zero, List.take_append_drop]
      rw [s _ (hlen a), s _ (hlen b), hv 0, hv 1]
    apply Subtype.ext
    unfold bufBytes at e
    have e := List.ofFn_injective e
    funext k
    exact congrArg UInt8.toFin (congrFun e k))
  rw [Nat.card_prod, Nat.card_fun, Nat.card_eq_fintype_card (α := Fin 2), Fintype.card_fin,
    Nat.card_eq_fintype_card (α := Fin (256 ^ 32 / q + 1)), Fintype.card_fin] at hle
  exact hle

/-- **C69, what batching costs in the library.** Of the 64-byte strings that a challenge is made from, at most a
fraction of `(m-1)/2^251` makes a batch of `m` equations true although one of them is false. -/
theorem C69_bytes (m : ℕ) (d : ℕ → Elt (ZMod Regev.P) 2) :
    Nat.card {buf : Fin 64 → Fin 256 // elementOf (bufBytes buf) ∈ BadBatch m d} * 2 ^ 251 ≤ (m - 1) * 256 ^ 64 := by
  have h1 := elementOf_card (BadBatch m d)
  have h2 := C69_bad (q := Regev.P) (by decide) m d
  have h3 : 256 ^ 32 / Regev.P + 1 = 16 := by decide +kernel
  rw [h3] at h1
  have h4 : Regev.P * 16 ^ 2 * 2 ^ 251 ≤ 256 ^ 64 := by decide +kernel
  calc _ ≤ ((BadBatch m d).ncard * 16 ^ 2) * 2 ^ 251 := Nat.mul_le_mul_right _ h1
    _ ≤ ((m - 1) * Regev.P * 16 ^ 2) * 2 ^ 251 := Nat.mul_le_mul_right _ (Nat.mul_le_mul_right _ h2)
    _ = (m - 1) * (Regev.P * 16 ^ 2 * 2 ^ 251) := by rw [mul_assoc (m - 1), mul_assoc (m - 1)]
    _ ≤ _ := Nat.mul_le_mul_left _ h4

/-- **C69, the count is exact.** Where -1 is a square, as it is modulo the library's prime, the ring is not a field,
and some equations have `(m-1)·q` bad challenges (over a field of `q²` elements it would be `m-1`). -/
theorem C69_tight (hq : q ≠ 2) (hs : IsSquare (-1 : ZMod q)) (m : ℕ) (hm : 0 < m) (hmq : m ≤ q) :
    ∃ d : ℕ → Elt (ZMod q) 2, (BadBatch m d).ncard = (m - 1) * q := by
  obtain ⟨i, hi⟩ := hs
  have hi := hi.symm
  have hi' : -i * -i = -1 := by rw [neg_mul_neg]; exact hi
  have hi0 : i ≠ 0 := by rintro rfl; simp at hi
  have h2q : (2 : ZMod q) ≠ 0 := by
    intro h
    have h : ((2 : ℕ) : ZMod q) = 0 := by exact_mod_cast h
    rw [ZMod.natCast_eq_zero_iff] at h
    exact hq ((Nat.prime_dvd_prime_iff_eq Fact.out Nat.prime_two).1 h)
  have hN : NeZero q := ⟨(Fact.out : q.Prime).ne_zero⟩
  obtain ⟨p, hp⟩ : ∃ p : (ZMod q)[X], p = ∏ k ∈ Finset.range (m - 1), (X - C (k : ZMod q)) := ⟨_, rfl⟩
  have hmon : p.Monic := by rw [hp]; exact monic_prod_of_monic _ _ fun k _ => monic_X_sub_C _
  have hdeg : p.natDegree = m - 1 := by
    rw [hp, natDegree_prod_of_monic _ _ fun k _ => monic_X_sub_C _]
    simp only [natDegree_X_sub_C, Finset.sum_const, Finset.card_range, smul_eq_mul, mul_one]
  obtain ⟨ε, hε⟩ : ∃ ε : Elt (ZMod q) 2, ε = ⟨![i, 1]⟩ := ⟨_, rfl⟩
  have v1 : evalAt i hi ε = 2 * i := by rw [hε, evalAt_apply]; simp; ring
  have v2 : evalAt (-i) hi' ε = 0 := by rw [hε, evalAt_apply]; simp
  obtain ⟨d, hd⟩ : ∃ d : ℕ → Elt (ZMod q) 2, d = fun j => p.coeff j • ε := ⟨_, rfl⟩
  have hdv : ∀ (a : ZMod q) (ha : a * a = -1) j, evalAt a ha (d j) = p.coeff j * evalAt a ha ε := by
    intro a ha j
    rw [hd, evalAt_apply, evalAt_apply, Elt.smul_c, Elt.smul_c]
    ring
  have hb : ∀ (a : ZMod q) (ha : a * a = -1) (ξ : Elt (ZMod q) 2),
      evalAt a ha (batch m ξ d) = p.eval (evalAt a ha ξ) * evalAt a ha ε := by
    intro a ha ξ
    rw [eval_batch, eval_finset_sum, eval_eq_sum_range' (n := m) (by omega), Finset.sum_mul]
    refine Finset.sum_congr rfl fun j _ => ?_
    rw [hdv, eval_C_mul, eval_X_pow]
    ring
  have hroot : ∀ ξ, batch m ξ d = 0 ↔ evalAt i hi ξ ∈ (Finset.range (m - 1)).image fun k : ℕ => (k : ZMod q) := by
    intro ξ
    have h1 : batch m ξ d = 0 ↔ p.eval (evalAt i hi ξ) = 0 := by
      constructor
      · intro h
        have h := congrArg (evalAt i hi) h
        rw [hb, map_zero, v1] at h
        exact (mul_eq_zero.1 h).resolve_right (mul_ne_zero h2q hi0)
      · intro h
        apply eq_zero_of_evals hq i hi hi'
        · rw [hb, h, zero_mul]
        · rw [hb, v2, mul_zero]
    rw [h1, hp, eval_prod, Finset.prod_eq_zero_iff]
    simp only [eval_sub, eval_X, eval_C, sub_eq_zero, Finset.mem_image]
    exact ⟨fun ⟨k, h, e⟩ => ⟨k, h, e.symm⟩, fun ⟨k, h, e⟩ => ⟨k, h, e.symm⟩⟩
  have hne : ∃ j < m, d j ≠ 0 := by
    refine ⟨m - 1, by omega, fun h => ?_⟩
    have h := congrArg (evalAt i hi) h
    rw [hdv, map_zero, v1, ← hdeg, hmon.coeff_natDegree, one_mul] at h
    exact mul_ne_zero h2q hi0 h
  refine ⟨d, ?_⟩
  have hcard : ((Finset.range (m - 1)).image fun k : ℕ => (k : ZMod q)).card = m - 1 := by
    rw [Finset.card_image_of_injOn, Finset.card_range]
    intro a ha b hb' hab
    have ha := Finset.mem_range.1 ha
    have hb' := Finset.mem_range.1 hb'
    rw [ZMod.natCast_eq_natCast_iff', Nat.mod_eq_of_lt (by omega), Nat.mod_eq_of_lt (by omega)] at hab
    exact hab
  have e : BadBatch m d ≃ ((Finset.range (m - 1)).image fun k : ℕ => (k : ZMod q)) × ZMod q :=
    { toFun := fun ξ => (⟨evalAt i hi ξ.1, (hroot _).1 ξ.2.2⟩, ξ.1.c 1)
      invFun := fun s => ⟨⟨![s.1.1 - i * s.2, s.2]⟩, hne, (hroot _).2 (by
        have : evalAt i hi ⟨![s.1.1 - i * s.2, s.2]⟩ = s.1.1 := by rw [evalAt_apply]; simp
        rw [this]
        exact s.1.2)⟩
      left_inv := fun ξ => by
        apply Subtype.ext
        apply Elt.ext
        funext k
        have hk : k = 0 ∨ k = 1 := by omega
        rcases hk with rfl | rfl
        · simp [evalAt_apply]
        · simp
      right_inv := fun s => by
        apply Prod.ext
        · apply Subtype.ext
          simp [evalAt_apply]
        · simp }
  rw [← Nat.card_coe_set_eq, Nat.card_congr e, Nat.card_prod, Nat.card_eq_fintype_card, Fintype.card_coe, hcard, Nat.card_zmod]

/-- -1 is a square modulo the library's prime, so there are such equations, e.g. 128 of them. -/
theorem neg_one_square : IsSquare (-1 : ZMod Regev.P) :=
  ZMod.exists_sq_eq_neg_one_iff.2 (by decide)

example : ∃ d : ℕ → Elt (ZMod Regev.P) 2, (BadBatch 128 d).ncard = 127 * Regev.P :=
  C69_tight (by decide) neg_one_square 128 (by norm_num) (by unfold Regev.P; norm_num)

/-! ### What the recorded constraints say, equation by equation -/

section
variable {G : Type} [AddCommGroup G] [Module (ZMod q) G]

/-- **C69.** Decryption: unless the challenge is bad, the recorded constraints hold iff the digits are those of the
compressed noise, in each of the 128 places. -/
theorem C69_decryption {E : Env (ZMod q) G} (hE : LengthOk E) {P : Params q} (hP : ParamsOk P)
    {tests : ℕ → Tests} (hT : ∀ k, NoFalsePrimes (tests k).probPrime) {fresh : Blocks (ZMod q)}
    {vd vd' : VerifierData (ZMod q) G E.St} {pd pd' : ProverData (ZMod q)} (S : Setup P vd pd)
    {ctMat : EMat q 2} {ctVec : EVec q 2} {ptxt : List (ZMod q)} {skey noise : EVec q 2}
    (hM : HasShape ctMat P.gk.kay P.gk.tee) (hV : ctVec.length = P.gk.tee)
    (hpt : ptxt.length = P.gk.tee) (hno : noise.length = P.gk.tee)
    (h : proveDecryption E P fresh tests vd pd ctMat ctVec ptxt skey noise = .ok (vd', pd'))
    (ρ : ℕ → ℕ → Elt (ZMod q) 2) (ξ : Elt (ZMod q) 2) (st : E.St)
    (hC : decChallenges E vd.mer P.gk.tee vd'.com = (ρ, ξ, st)) (x : ℕ → ZMod q)
    (hξ : ξ ∉ BadBatch 128 (fun j => digits x vd.ix.dCompLo vd.ix.dCompHi P.radix j -
        ∑ i ∈ Finset.range P.gk.tee,
          decNoise P.delta P.gk.kay ctMat ctVec vd.ix.sk1 vd.ix.pt1 x i * ρ i j)) :
    SlotSat vd'.linConstr 0 x ↔ ∀ j < 128, digits x vd.ix.dCompLo vd.ix.dCompHi P.radix j =
      ∑ i ∈ Finset.range P.gk.tee, decNoise P.delta P.gk.kay ctMat ctVec vd.ix.sk1 vd.ix.pt1 x i * ρ i j := by
  rw [(C43_decryption_meaning hE hP hT S hM hV hpt hno h ρ ξ st hC).1 x, C69_good hξ]
  simp only [sub_eq_zero]

/-- **C69.** Encryption. -/
theorem C69_encryption {E : Env (ZMod q) G} (hE : LengthOk E) {P : Params q} (hP : ParamsOk P)
    {tests : ℕ → Tests} (hT : ∀ k, NoFalsePrimes (tests k).probPrime) {fresh : Blocks (ZMod q)}
    {vd vd' : VerifierData (ZMod q) G E.St} {pd pd' : ProverData (ZMod q)} (S : Setup P vd pd)
    (h6 : SlotOk vd.linConstr 6 vd.ix.w) (h6' : ∀ x, slotLhs vd.linConstr 6 x = 0)
    {ct1 ct2 : EVec q 2} {ptxt : List (ZMod q)} {rnd noise1 noise2 : EVec q 2}
    (hc1 : ct1.length = P.gk.kay) (hc2 : ct2.length = P.gk.enn)
    (hpt : ptxt.length = P.gk.enn) (hr : rnd.length = P.gk.kay)
    (hn1 : noise1.length = P.gk.kay) (hn2 : noise2.length = P.gk.enn)
    (h : proveEncryption E P fresh tests vd pd ct1 ct2 ptxt rnd noise1 noise2 = .ok (vd', pd'))
    (C : EncChallenges q E.St) (hC : encChallenges E vd.mer P.gk.kay P.gk.enn vd'.com = C) (x : ℕ → ZMod q)
    (hξ1 : C.x1 ∉ BadBatch 128 (fun j => digits x vd.ix.eComp1Lo vd.ix.eComp1Hi P.radix j -
        ∑ i ∈ Finset.range P.gk.kay, C.R1 j i * encNoise1 P.gk.kay P.gk.A ct1 vd.ix.r x i))
    (hξ2 : C.x2 ∉ BadBatch 128 (fun j => digits x vd.ix.eComp2Lo vd.ix.eComp2Hi P.radix j -
        ∑ i ∈ Finset.range P.gk.enn,
          C.R2 j i * encNoise2 P.delta P.gk.kay P.gk.B ct2 vd.ix.r vd.ix.pt2 x i))
    (hξ3 : C.x3 ∉ BadBatch 128 (fun j => eltAt x vd.ix.rComp j -
        ∑ i ∈ Finset.range P.gk.kay, C.R3 j i * eltAt x vd.ix.r i)) :
    (SlotSat vd'.linConstr 2 x ↔ ∀ j < 128, digits x vd.ix.eComp1Lo vd.ix.eComp1Hi P.radix j =
      ∑ i ∈ Finset.range P.gk.kay, C.R1 j i * encNoise1 P.gk.kay P.gk.A ct1 vd.ix.r x i) ∧
    (SlotSat vd'.linConstr 4 x ↔ ∀ j < 128, digits x vd.ix.eComp2Lo vd.ix.eComp2Hi P.radix j =
      ∑ i ∈ Finset.range P.gk.enn, C.R2 j i * encNoise2 P.delta P.gk.kay P.gk.B ct2 vd.ix.r vd.ix.pt2 x i) ∧
    (SlotSat vd'.linConstr 6 x ↔ ∀ j < 128, eltAt x vd.ix.rComp j =
      ∑ i ∈ Finset.range P.gk.kay, C.R3 j i * eltAt x vd.ix.r i) := by
  obtain ⟨m1, m2, m3, -⟩ := C43_encryption_meaning hE hP hT S h6 hc1 hc2 hpt hr hn1 hn2 h C hC
  refine ⟨?_, ?_, ?_⟩
  · rw [m1 x, C69_good hξ1]
    simp only [sub_eq_zero]
  · rw [m2 x, C69_good hξ2]
    simp only [sub_eq_zero]
  · rw [m3 x, h6', zero_add, C69_good hξ3]
    simp only [sub_eq_zero]

/-- **C69.** Key generation. -/
theorem C69_keygen {E : Env (ZMod q) G} (hE : LengthOk E) {P : Params q} (hP : ParamsOk P)
    {tests : ℕ → Tests} (hT : ∀ k, NoFalsePrimes (tests k).probPrime) {fresh : Blocks (ZMod q)}
    {vd vd' : VerifierData (ZMod q) G E.St} {pd pd' : ProverData (ZMod q)} (S : Setup P vd pd)
    {pkNum : ℕ} {skey noise : EVec q 2} (hs : skey.length = P.gk.kay) (hno : noise.length = P.gk.kay)
    (h : proveKeyGen E P fresh tests vd pd pkNum skey noise = .ok (vd', pd'))
    (C : KeyChallenges q E.St) (hC : keyChallenges E vd.mer P.gk.kay vd'.com = C) (x : ℕ → ZMod q)
    (hξ1 : C.x1 ∉ BadBatch 128 (fun j => digits x vd.ix.kCompLo vd.ix.kCompHi P.radix j -
        ∑ i ∈ Finset.range P.gk.kay,
          keyNoise P.gk.kay P.gk.A (P.gk.B.getD pkNum []) vd.ix.sk2 x i * C.R1 i j))
    (hξ2 : C.x2 ∉ BadBatch 128 (fun j => eltAt x vd.ix.sk2Comp j -
        ∑ i ∈ Finset.range P.gk.kay, eltAt x vd.ix.sk2 i * C.R2 i j)) :
    (SlotSat vd'.linConstr 8 x ↔ ∀ j < 128, digits x vd.ix.kCompLo vd.ix.kCompHi P.radix j =
      ∑ i ∈ Finset.range P.gk.kay, keyNoise P.gk.kay P.gk.A (P.gk.B.getD pkNum []) vd.ix.sk2 x i * C.R1 i j) ∧
    (SlotSat vd'.linConstr 10 x ↔ ∀ j < 128, eltAt x vd.ix.sk2Comp j =
      ∑ i ∈ Finset.range P.gk.kay, eltAt x vd.ix.sk2 i * C.R2 i j) := by
  obtain ⟨m1, m2, -⟩ := C43_keygen_meaning hE hP hT S hs hno h C hC
  refine ⟨?_, ?_⟩
  · rw [m1 x, C69_good hξ1]
    simp only [sub_eq_zero]
  · rw [m2 x, C69_good hξ2]
    simp only [sub_eq_zero]

/-- **C69.** Smallness: unless the challenge is bad, the recorded constraints hold iff the published vector is the
masked reply. -/
theorem C69_smallness {E : Env (ZMod q) G} (hE : LengthOk E) {P : Params q}
    {rnd : ℕ → SmallRnd q} {vd vd' : VerifierData (ZMod q) G E.St} {pd pd' : ProverData (ZMod q)}
    (S : Setup P vd pd) (h : proveSmallness E P rnd vd pd = .ok (vd', pd'))
    (ρ : ℕ → ℕ → Elt (ZMod q) 2) (ξ : Elt (ZMod q) 2) (st : E.St)
    (hC : smallChallenges E vd.mer vd'.com vd'.z = (ρ, ξ, st)) (x : ℕ → ZMod q)
    (hξ : ξ ∉ BadBatch 64 (fun j => eltAt x vd.ix.y j + (∑ i ∈ Finset.range 1300, eltAt x 0 i * ρ i j) -
        vd'.z.getD j 0)) :
    SlotSat vd'.linConstr 12 x ↔
      ∀ j < 64, eltAt x vd.ix.y j + (∑ i ∈ Finset.range 1300, eltAt x 0 i * ρ i j) = vd'.z.getD j 0 := by
  rw [(C43_smallness_meaning hE S h ρ ξ st hC).1 x, C69_good hξ]
  simp only [sub_eq_zero]

end

/-- Whatever the 128 equations are, there are challenges that are not bad. -/
example (d : ℕ → Elt (ZMod Regev.P) 2) : ∃ ξ, ξ ∉ BadBatch 128 d := by
  by_contra h
  push Not at h
  have e : BadBatch 128 d = Set.univ := Set.eq_univ_of_forall h
  have h1 := C69_bad (q := Regev.P) (by decide) 128 d
  rw [e, Set.ncard_univ, card_elt] at h1
  revert h1
  unfold Regev.P
  norm_num

end
end Verif.Props
