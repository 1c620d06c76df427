/-
C98: the verifiers on proofs that are bytes throughout.

The scalars of a proof are read from a stream without being looked at, and they are not hashed.
Every scalar has several encodings with which the verdict is the same, so that an accepted proof
can be changed into other accepted ones.  A response of `2^255` or more is read in two ways by one
verification; the equation that is then checked has an error in the coefficient of the first
generator.
-/
import Verif.Lemmas.ProofBytes
import Verif.Props.PointBytes

namespace Verif.Props
open Verif.Sc Verif.Spec

section
variable {K G : Type} [AddCommGroup K] [DecidableEq G] [AddCommGroup G] [Module (ZMod order) G]
  {S : Sodium} {E : Env (ZMod order) G} {enc : K → Bytes} {dec : Bytes → Option K} {ι : G →+ K}

/-- Whatever bytes the scalars are given in, as long as they are below `2^255` (and zero is given as
zero): same verdict, same transcript, same exceptions as with the residues. -/
theorem C98_linear_residues (h : SodiumOk S E.pointBytes E.base) (hs : ∀ x, IsScalar (E.scalarBytes x) x)
    (pf : LinPfR) (a r : ZMod order) (ha : StandsFor pf.a a) (hr : StandsFor pf.r r)
    (bs : List (ZMod order)) (gs : List G) (n : Nat) (eq : ZMod order) (st : E.St)
    (off : Option (List (ZMod order))) (hn1 : 1 ≤ n) (hn2 : n ≤ 2 ^ 63) (hb : bs.length = n)
    (hg : gs.length = n) (ho : ∀ o, off = some o → o.length = n) :
    verifyLinearR E S pf bs (gs.map E.pointBytes) n eq st off =
      verifyLinearB E S (linWith pf a r) bs (gs.map E.pointBytes) n eq st off :=
  verifyLinearR_stands ⟨h, hs⟩ pf ha hr bs gs n eq st off hn1 hn2 hb hg ho

theorem C98_quadratic_residues (h : SodiumOk S E.pointBytes E.base)
    (hs : ∀ x, IsScalar (E.scalarBytes x) x)
    (pf : QuadPfR) (a b r : ZMod order) (ha : StandsFor pf.a a) (hb : StandsFor pf.b b)
    (hr : StandsFor pf.r r) (gs hs' : List G) (n : Nat) (eq : ZMod order) (st : E.St)
    (u v : Option (List (ZMod order))) (hn1 : 1 ≤ n) (hn2 : n ≤ 2 ^ 63) (hg : gs.length = n)
    (hh : hs'.length = n) (hu : ∀ o, u = some o → o.length = n) (hv : ∀ o, v = some o → o.length = n) :
    verifyQuadraticR E S pf (gs.map E.pointBytes) (hs'.map E.pointBytes) n eq st u v =
      verifyQuadraticB E S (quadWith pf a b r) (gs.map E.pointBytes) (hs'.map E.pointBytes) n eq st u v :=
  verifyQuadraticR_stands ⟨h, hs⟩ pf ha hb hr gs hs' n eq st u v hn1 hn2 hg hh hu hv

omit [AddCommGroup K] [DecidableEq G] [AddCommGroup G] [Module (ZMod order) G] in
/-- There is no error in the coefficient of the first generator if the response is below `2^255`. -/
theorem C98_no_error (a : Bytes) (ha : number a < 2 ^ 255) (off : Option (List (ZMod order))) :
    firstErr a off = 0 := firstErr_low ha off

/-- If the verifier accepts bytes, then (as in C97) the points are of the main subgroup, and the
equation holds for the residue of `a`, for `r` without its top bit, and with an error in the
coefficient of the first generator. -/
theorem C98_linear_accepts (h : CurveOk S enc dec ι E.base) (hT : IgnoresTopBit S)
    (hp : E.pointBytes = fun g => enc (ι g)) (hs : ∀ x, IsScalar (E.scalarBytes x) x)
    (pf : LinPfR) (ha : pf.a.length = 32) (hr : pf.r.length = 32) (bs : List (ZMod order))
    (gs : List G) (n : Nat) (eq : ZMod order) (st st' : E.St) (off : Option (List (ZMod order)))
    (hn1 : 1 ≤ n) (hn2 : n ≤ 2 ^ 63) (hb : bs.length = n) (hg : gs.length = n)
    (ho : ∀ o, off = some o → o.length = n)
    (acc : verifyLinearR E S pf bs (gs.map E.pointBytes) n eq st off = .ok (true, st')) :
    ∃ (α ρ e : ZMod order), α = ((number pf.a : ℕ) : ZMod order) ∧
      ρ = ((number pf.r % 2 ^ 255 : ℕ) : ZMod order) ∧
      e = firstErr pf.a (off.map fun o => o.map (· * (deriveLinB E (linWith pf α ρ) n st).x)) ∧
    0 ∉ (deriveLinB E (linWith pf α ρ) n st).xs ∧ (deriveLinB E (linWith pf α ρ) n st).x ≠ 0 ∧
    st' = (deriveLinB E (linWith pf α ρ) n st).st ∧
    ∃ (C Sp : G) (Ls Rs : List G), dec pf.C = some (ι C) ∧ dec pf.S = some (ι Sp) ∧
      pf.Ls = Ls.map (fun g => enc (ι g)) ∧ pf.Rs = Rs.map (fun g => enc (ι g)) ∧
      LinEqErr E ⟨pf.tag, C, Ls, Rs, Sp, α, ρ⟩ bs gs eq (off.getD [])
        (deriveLinB E (linWith pf α ρ) n st) e := by
  obtain ⟨e, he, hx, hv⟩ := verifyLinearR_ok (encOk_of_curve h hp hs) hT pf ha hr bs gs n eq st off _ hn1 hn2
    hb hg ho acc
  obtain ⟨h1, h2, h3, C, Sp, Ls, Rs, h4, h5, h6, h7, h8⟩ := C97_linear_accepts h hp hs _ bs gs n eq st st' _ hn1
    hn2 hb hg (by rintro o ⟨⟩; exact length_offPlus hn1 off _ ho) hv
  refine ⟨_, _, e, rfl, rfl, he, h1, h2, h3, C, Sp, Ls, Rs, h4, h5, h6, h7, ?_⟩
  unfold LinEq at h8
  unfold LinEqErr
  refine h8.trans ?_
  rw [Option.getD_some, mexp_offPlus hn1 off _ ho, smul_add _ (mexp (offList off) gs), smul_smul,
    mul_div_cancel₀ _ hx]
  simp only [add_assoc]
  rfl

theorem C98_quadratic_accepts (h : CurveOk S enc dec ι E.base) (hT : IgnoresTopBit S)
    (hp : E.pointBytes = fun g => enc (ι g)) (hs : ∀ x, IsScalar (E.scalarBytes x) x)
    (pf : QuadPfR) (ha : pf.a.length = 32) (hb : pf.b.length = 32) (hr : pf.r.length = 32)
    (gs hs' : List G) (n : Nat) (eq : ZMod order) (st st' : E.St) (u v : Option (List (ZMod order)))
    (hn1 : 1 ≤ n) (hn2 : n ≤ 2 ^ 63) (hg : gs.length = n) (hh : hs'.length = n)
    (hu : ∀ o, u = some o → o.length = n) (hv : ∀ o, v = some o → o.length = n)
    (acc : verifyQuadraticR E S pf (gs.map E.pointBytes) (hs'.map E.pointBytes) n eq st u v =
      .ok (true, st')) :
    ∃ (α β ρ e e' : ZMod order), α = ((number pf.a : ℕ) : ZMod order) ∧
      β = ((number pf.b : ℕ) : ZMod order) ∧ ρ = ((number pf.r % 2 ^ 255 : ℕ) : ZMod order) ∧
      e = firstErr pf.a u ∧ e' = firstErr pf.b v ∧
    0 ∉ (deriveQuadB E (quadWith pf α β ρ) n st).xs ∧
    st' = (deriveQuadB E (quadWith pf α β ρ) n st).st ∧
    ∃ (C : G) (Ls Rs : List G) (S1 S2 : G), dec pf.C = some (ι C) ∧
      pf.Ls = Ls.map (fun g => enc (ι g)) ∧ pf.Rs = Rs.map (fun g => enc (ι g)) ∧
      ((deriveQuadB E (quadWith pf α β ρ) n st).x ≠ 0 →
        dec pf.S1 = some (ι S1) ∧ pf.S2 = enc (ι S2)) ∧
      QuadEqErr E ⟨pf.tag, C, Ls, Rs, S1, S2, α, β, ρ⟩ gs hs' eq (u.getD []) (v.getD [])
        (deriveQuadB E (quadWith pf α β ρ) n st) e e' := by
  obtain ⟨e, e', he, he', hv'⟩ := verifyQuadraticR_ok (encOk_of_curve h hp hs) hT pf ha hb hr gs hs' n eq st u v _
    hn1 hn2 hg hh hu hv acc
  obtain ⟨h1, h2, C, Ls, Rs, S1, S2, h4, h5, h6, h7, h8⟩ := C97_quadratic_accepts h hp hs _ gs hs' n eq st st' _ _
    hn1 hn2 hg hh (by rintro o ⟨⟩; exact length_offPlus hn1 u _ hu)
    (by rintro o ⟨⟩; exact length_offPlus hn1 v _ hv) hv'
  refine ⟨_, _, _, e, e', rfl, rfl, rfl, he, he', h1, h2, C, Ls, Rs, S1, S2, h4, h5, h6, h7, ?_⟩
  unfold QuadEq at h8
  unfold QuadEqErr
  refine h8.trans ?_
  rw [Option.getD_some, Option.getD_some, mexp_offPlus hn1 u _ hu, mexp_offPlus hn1 v _ hv]
  simp only [add_assoc]
  rfl

/-- Every scalar but zero has seven encodings, the canonical one among them. -/
theorem C98_encodings (x : ZMod order) (hx : x ≠ 0) (b : Bytes) (hb : IsScalar b x) :
    ∃ A : Fin 7 → Bytes, Function.Injective A ∧ A 0 = b ∧ ∀ i, StandsFor (A i) x := by
  have hlt : ∀ i : Fin 7, x.val + i.val * order < 2 ^ 255 := by
    intro i
    have h1 : x.val < order := x.val_lt
    have h2 : i.val ≤ 6 := by omega
    have h3 : i.val * order ≤ 6 * order := Nat.mul_le_mul_right _ h2
    calc x.val + i.val * order < order + 6 * order := Nat.add_lt_add_of_lt_of_le h1 h3
      _ ≤ 2 ^ 255 := by unfold order; norm_num
  have hval : ∀ i : Fin 7, number (zzBytes 32 ((x.val + i.val * order : ℕ) : ℤ)) = x.val + i.val * order := by
    intro i
    rw [← leVal_eq, zzBytes_val, Int.natAbs_natCast]
    exact Nat.mod_eq_of_lt (lt_trans (hlt i) (by norm_num))
  refine ⟨fun i => zzBytes 32 ((x.val + i.val * order : ℕ) : ℤ), fun i j hij => ?_, ?_, fun i => ?_⟩
  · have := congrArg number hij
    dsimp only at this
    rw [hval, hval] at this
    have h2 := Nat.add_left_cancel this
    exact Fin.ext (Nat.eq_of_mul_eq_mul_right (by unfold order; norm_num) h2)
  · refine isScalar_inj ⟨zzBytes_length _ _, ?_⟩ hb
    rw [hval]
    simp
  · refine ⟨zzBytes_length _ _, by rw [hval]; exact hlt i, ?_, fun h0 => absurd h0 hx⟩
    rw [hval, Nat.cast_add, Nat.cast_mul, ZMod.natCast_zmod_val, ZMod.natCast_self, mul_zero, add_zero]

theorem standsFor_of_isScalar {b : Bytes} {x : ZMod order} (h : IsScalar b x) : StandsFor b x :=
  ⟨h.1, isScalar_lt h, by rw [← leVal_eq]; exact isScalar_cast h, fun h0 => by rw [h.2, h0, ZMod.val_zero]⟩

/-- An accepted proof whose two scalars are not zero is one of 49 that differ only in the bytes of
the scalars and are all accepted, with the same transcript. -/
theorem C98_linear_malleable (h : SodiumOk S E.pointBytes E.base) (hs : ∀ x, IsScalar (E.scalarBytes x) x)
    (pf : LinPfR) (a r : ZMod order) (ha : IsScalar pf.a a) (hr : IsScalar pf.r r) (ha0 : a ≠ 0)
    (hr0 : r ≠ 0) (bs : List (ZMod order)) (gs : List G) (n : Nat) (eq : ZMod order) (st st' : E.St)
    (off : Option (List (ZMod order))) (hn1 : 1 ≤ n) (hn2 : n ≤ 2 ^ 63) (hb : bs.length = n)
    (hg : gs.length = n) (ho : ∀ o, off = some o → o.length = n)
    (acc : verifyLinearR E S pf bs (gs.map E.pointBytes) n eq st off = .ok (true, st')) :
    ∃ A R : Fin 7 → Bytes, Function.Injective A ∧ Function.Injective R ∧ A 0 = pf.a ∧ R 0 = pf.r ∧
      ∀ i j, verifyLinearR E S { pf with a := A i, r := R j } bs (gs.map E.pointBytes) n eq st off =
        .ok (true, st') := by
  obtain ⟨A, hA, hA0, hAs⟩ := C98_encodings a ha0 pf.a ha
  obtain ⟨R, hR, hR0, hRs⟩ := C98_encodings r hr0 pf.r hr
  refine ⟨A, R, hA, hR, hA0, hR0, fun i j => ?_⟩
  rw [C98_linear_residues h hs _ a r (hAs i) (hRs j) bs gs n eq st off hn1 hn2 hb hg ho]
  rwa [C98_linear_residues h hs pf a r (standsFor_of_isScalar ha) (standsFor_of_isScalar hr) bs gs n eq st
    off hn1 hn2 hb hg ho] at acc

theorem C98_quadratic_malleable (h : SodiumOk S E.pointBytes E.base)
    (hs : ∀ x, IsScalar (E.scalarBytes x) x)
    (pf : QuadPfR) (a b r : ZMod order) (ha : IsScalar pf.a a) (hb : IsScalar pf.b b) (hr : IsScalar pf.r r)
    (ha0 : a ≠ 0) (hb0 : b ≠ 0) (hr0 : r ≠ 0) (gs hs' : List G) (n : Nat) (eq : ZMod order) (st st' : E.St)
    (u v : Option (List (ZMod order))) (hn1 : 1 ≤ n) (hn2 : n ≤ 2 ^ 63) (hg : gs.length = n)
    (hh : hs'.length = n) (hu : ∀ o, u = some o → o.length = n) (hv : ∀ o, v = some o → o.length = n)
    (acc : verifyQuadraticR E S pf (gs.map E.pointBytes) (hs'.map E.pointBytes) n eq st u v =
      .ok (true, st')) :
    ∃ A B R : Fin 7 → Bytes, Function.Injective A ∧ Function.Injective B ∧ Function.Injective R ∧
      A 0 = pf.a ∧ B 0 = pf.b ∧ R 0 = pf.r ∧
      ∀ i j k, verifyQuadraticR E S { pf with a := A i, b := B j, r := R k } (gs.map E.pointBytes)
        (hs'.map E.pointBytes) n eq st u v = .ok (true, st') := by
  obtain ⟨A, hA, hA0, hAs⟩ := C98_encodings a ha0 pf.a ha
  obtain ⟨B, hB, hB0, hBs⟩ := C98_encodings b hb0 pf.b hb
  obtain ⟨R, hR, hR0, hRs⟩ := C98_encodings r hr0 pf.r hr
  refine ⟨A, B, R, hA, hB, hR, hA0, hB0, hR0, fun i j k => ?_⟩
  rw [C98_quadratic_residues h hs _ a b r (hAs i) (hBs j) (hRs k) gs hs' n eq st u v hn1 hn2 hg hh hu hv]
  rwa [C98_quadratic_residues h hs pf a b r (standsFor_of_isScalar ha) (standsFor_of_isScalar hb)
    (standsFor_of_isScalar hr) gs hs' n eq st u v hn1 hn2 hg hh hu hv] at acc

/-- Zero has only one encoding with which a proof is verified: if the bytes of `r` are not all zero
but the number without the top bit is a multiple of the order, the verifier does not return. -/
theorem C98_linear_zero (h : SodiumOk S E.pointBytes E.base) (hs : ∀ x, IsScalar (E.scalarBytes x) x)
    (hT : IgnoresTopBit S) (hbase : E.base ≠ 0) (pf : LinPfR) (hr : pf.r.length = 32)
    (hr0 : number pf.r ≠ 0) (hr1 : ((number pf.r % 2 ^ 255 : ℕ) : ZMod order) = 0)
    (bs : List (ZMod order)) (gs : List Bytes) (n : Nat) (eq : ZMod order) (st : E.St)
    (off : Option (List (ZMod order))) (v : Bool × E.St) :
    verifyLinearR E S pf bs gs n eq st off ≠ .ok v := by
  intro e
  simp only [verifyLinearR] at e
  obtain ⟨_, -, e⟩ := Res.bind_eq_ok.1 e
  obtain ⟨_, -, e⟩ := Res.bind_eq_ok.1 e
  split at e
  · cases e
  obtain ⟨_, -, e⟩ := Res.bind_eq_ok.1 e
  obtain ⟨_, -, e⟩ := Res.bind_eq_ok.1 e
  obtain ⟨_, -, e⟩ := Res.bind_eq_ok.1 e
  obtain ⟨_, -, e⟩ := Res.bind_eq_ok.1 e
  obtain ⟨_, -, e⟩ := Res.bind_eq_ok.1 e
  obtain ⟨_, -, e⟩ := Res.bind_eq_ok.1 e
  obtain ⟨_, -, e⟩ := Res.bind_eq_ok.1 e
  obtain ⟨_, -, e⟩ := Res.bind_eq_ok.1 e
  obtain ⟨_, -, e⟩ := Res.bind_eq_ok.1 e
  obtain ⟨_, -, e⟩ := Res.bind_eq_ok.1 e
  obtain ⟨_, -, e⟩ := Res.bind_eq_ok.1 e
  obtain ⟨rB, erB, -⟩ := Res.bind_eq_ok.1 e
  rw [h.basePoint] at erB
  exact ptMul_zero_ne_ok ⟨h, hs⟩ hT hbase hr hr0 hr1 _ erB

theorem C98_quadratic_zero (h : SodiumOk S E.pointBytes E.base) (hs : ∀ x, IsScalar (E.scalarBytes x) x)
    (hT : IgnoresTopBit S) (hbase : E.base ≠ 0) (pf : QuadPfR) (hr : pf.r.length = 32)
    (hr0 : number pf.r ≠ 0) (hr1 : ((number pf.r % 2 ^ 255 : ℕ) : ZMod order) = 0)
    (gs hs' : List Bytes) (n : Nat) (eq : ZMod order) (st : E.St)
    (u v : Option (List (ZMod order))) (w : Bool × E.St) :
    verifyQuadraticR E S pf gs hs' n eq st u v ≠ .ok w := by
  intro e
  simp only [verifyQuadraticR] at e
  obtain ⟨_, -, e⟩ := Res.bind_eq_ok.1 e
  obtain ⟨_, -, e⟩ := Res.bind_eq_ok.1 e
  split at e
  · cases e
  obtain ⟨_, -, e⟩ := Res.bind_eq_ok.1 e
  obtain ⟨_, -, e⟩ := Res.bind_eq_ok.1 e
  obtain ⟨_, -, e⟩ := Res.bind_eq_ok.1 e
  obtain ⟨_, -, e⟩ := Res.bind_eq_ok.1 e
  obtain ⟨_, -, e⟩ := Res.bind_eq_ok.1 e
  obtain ⟨_, -, e⟩ := Res.bind_eq_ok.1 e
  obtain ⟨_, -, e⟩ := Res.bind_eq_ok.1 e
  obtain ⟨_, -, e⟩ := Res.bind_eq_ok.1 e
  obtain ⟨_, -, e⟩ := Res.bind_eq_ok.1 e
  obtain ⟨_, -, e⟩ := Res.bind_eq_ok.1 e
  obtain ⟨_, -, e⟩ := Res.bind_eq_ok.1 e
  obtain ⟨rB, erB, -⟩ := Res.bind_eq_ok.1 e
  rw [h.basePoint] at erB
  exact ptMul_zero_ne_ok ⟨h, hs⟩ hT hbase hr hr0 hr1 _ erB

/-- What exactly is checked, whatever 32 bytes the scalars are (but for multiples of the order that
are not zero): the verifier returns true if and only if the equation holds in which the coefficient
of the first generator is off by `2^255` if the top bit of `a` is set and there are no offsets, and by
`2^256` if adding the offset carries. -/
theorem C98_linear_exact (h : SodiumOk S E.pointBytes E.base) (hs : ∀ x, IsScalar (E.scalarBytes x) x)
    (hT : IgnoresTopBit S) (pf : LinPf (ZMod order) G) (a r : Bytes) (ha : a.length = 32)
    (hr : r.length = 32) (hpa : pf.a = ((number a : ℕ) : ZMod order))
    (hpr : pf.r = ((number r % 2 ^ 255 : ℕ) : ZMod order)) (off : Option (List (ZMod order)))
    (ha0 : off = none → number a = 0 ∨ ((number a % 2 ^ 255 : ℕ) : ZMod order) ≠ 0)
    (hr0 : number r = 0 ∨ ((number r % 2 ^ 255 : ℕ) : ZMod order) ≠ 0)
    (bs : List (ZMod order)) (gs : List G) (n : Nat) (eq : ZMod order) (st : E.St)
    (hn1 : 1 ≤ n) (hn2 : n ≤ 2 ^ 63) (hb : bs.length = n) (hg : gs.length = n)
    (ho : ∀ o, off = some o → o.length = n)
    (hL : pf.Ls.length = log2roundUp n) (hR : pf.Rs.length = log2roundUp n)
    (hxs : 0 ∉ (deriveLin E pf n st).xs) (hx : (deriveLin E pf n st).x ≠ 0) :
    ∃ b, verifyLinearR E S (linRaw E pf a r) bs (gs.map E.pointBytes) n eq st off =
        .ok (b, (deriveLin E pf n st).st) ∧
      (b = true ↔ LinEqErr E pf bs gs eq (off.getD []) (deriveLin E pf n st)
        (firstErr a (off.map fun o => o.map (· * (deriveLin E pf n st).x)))) := by
  have hd : deriveLinB E (linBytes E pf) n st = deriveLin E pf n st := by
    simp only [deriveLinB, linBytes, deriveLin, foldChallengesB_map]
  have hw : linWith (linRaw E pf a r) ((number a : ℕ) : ZMod order) ((number r % 2 ^ 255 : ℕ) : ZMod order) =
      linBytes E pf := by
    simp only [linWith, linRaw, linBytes, hpa, hpr]
  have e := verifyLinearR_low ⟨h, hs⟩ hT (linRaw E pf a r) ha hr off ha0 hr0 bs gs n eq st hn1 hn2 hb hg ho
    (by rw [hw, hd]; exact hx)
  rw [hw, hd, C97_linear_refines h hs] at e
  obtain ⟨b, hb', hiff⟩ := (C11_linear_verifier E pf bs gs n eq st
    (some (offPlus n off (firstErr a (off.map fun o => o.map (· * (deriveLin E pf n st).x)) /
      (deriveLin E pf n st).x))) hn1 hn2 hb hg
    (by rintro o ⟨⟩; exact length_offPlus hn1 off _ ho) hL hR).2 (by push Not; exact ⟨hxs, hx⟩)
  refine ⟨b, e.trans hb', hiff.trans ?_⟩
  unfold LinEq LinEqErr
  rw [Option.getD_some, mexp_offPlus hn1 off _ ho, smul_add _ (mexp (offList off) gs), smul_smul,
    mul_div_cancel₀ _ hx]
  simp only [offList, add_assoc]

theorem C98_quadratic_exact (h : SodiumOk S E.pointBytes E.base) (hs : ∀ x, IsScalar (E.scalarBytes x) x)
    (hT : IgnoresTopBit S) (pf : QuadPf (ZMod order) G) (a b r : Bytes) (ha : a.length = 32)
    (hb : b.length = 32) (hr : r.length = 32) (hpa : pf.a = ((number a : ℕ) : ZMod order))
    (hpb : pf.b = ((number b : ℕ) : ZMod order)) (hpr : pf.r = ((number r % 2 ^ 255 : ℕ) : ZMod order))
    (u v : Option (List (ZMod order)))
    (ha0 : u = none → number a = 0 ∨ ((number a % 2 ^ 255 : ℕ) : ZMod order) ≠ 0)
    (hb0 : v = none → number b = 0 ∨ ((number b % 2 ^ 255 : ℕ) : ZMod order) ≠ 0)
    (hr0 : number r = 0 ∨ ((number r % 2 ^ 255 : ℕ) : ZMod order) ≠ 0)
    (gs hs' : List G) (n : Nat) (eq : ZMod order) (st : E.St)
    (hn1 : 1 ≤ n) (hn2 : n ≤ 2 ^ 63) (hg : gs.length = n) (hh : hs'.length = n)
    (hu : ∀ o, u = some o → o.length = n) (hv : ∀ o, v = some o → o.length = n)
    (hL : pf.Ls.length = log2roundUp n) (hR : pf.Rs.length = log2roundUp n)
    (hxs : 0 ∉ (deriveQuad E pf n st).xs) :
    ∃ c, verifyQuadraticR E S (quadRaw E pf a b r) (gs.map E.pointBytes) (hs'.map E.pointBytes) n eq st
        u v = .ok (c, (deriveQuad E pf n st).st) ∧
      (c = true ↔ QuadEqErr E pf gs hs' eq (u.getD []) (v.getD []) (deriveQuad E pf n st) (firstErr a u)
        (firstErr b v)) := by
  have hw : quadWith (quadRaw E pf a b r) ((number a : ℕ) : ZMod order) ((number b : ℕ) : ZMod order)
      ((number r % 2 ^ 255 : ℕ) : ZMod order) = quadBytes E pf := by
    simp only [quadWith, quadRaw, quadBytes, hpa, hpb, hpr]
  have e := verifyQuadraticR_low ⟨h, hs⟩ hT (quadRaw E pf a b r) ha hb hr u v ha0 hb0 hr0 gs hs' n eq st hn1 hn2 hg hh
    hu hv
  rw [hw, C97_quadratic_refines h hs] at e
  obtain ⟨c, hb', hiff⟩ := (C11_quadratic_verifier E pf gs hs' n eq st (some (offPlus n u (firstErr a u)))
    (some (offPlus n v (firstErr b v))) hn1 hn2 hg hh
    (by rintro o ⟨⟩; exact length_offPlus hn1 u _ hu)
    (by rintro o ⟨⟩; exact length_offPlus hn1 v _ hv) hL hR).2 hxs
  refine ⟨c, e.trans hb', hiff.trans ?_⟩
  unfold QuadEq QuadEqErr
  rw [Option.getD_some, Option.getD_some, mexp_offPlus hn1 u _ hu, mexp_offPlus hn1 v _ hv]
  simp only [offList, add_assoc]

/-- No bytes make the verifiers access memory out of bounds. -/
theorem C98_linear_safe (pf : LinPfR) (bs : List (ZMod order)) (gs : List Bytes)
    (n : Nat) (eq : ZMod order) (st : E.St) (off : Option (List (ZMod order)))
    (hn1 : 1 ≤ n) (hn2 : n ≤ 2 ^ 63) (hb : bs.length = n) (hg : n ≤ gs.length)
    (ho : ∀ o, off = some o → n ≤ o.length) :
    verifyLinearR E S pf bs gs n eq st off ≠ .ub :=
  verifyLinearR_ne_ub pf bs gs n eq st off hn1 hn2 hb hg ho

theorem C98_quadratic_safe (pf : QuadPfR) (gs hs : List Bytes)
    (n : Nat) (eq : ZMod order) (st : E.St) (u v : Option (List (ZMod order)))
    (hn1 : 1 ≤ n) (hn2 : n ≤ 2 ^ 63) (hg : n ≤ gs.length) (hh : n ≤ hs.length)
    (hu : ∀ o, u = some o → n ≤ o.length) (hv : ∀ o, v = some o → n ≤ o.length) :
    verifyQuadraticR E S pf gs hs n eq st u v ≠ .ub :=
  verifyQuadraticR_ne_ub pf gs hs n eq st u v hn1 hn2 hg hh hu hv

end

/-! ### The hypotheses can be met, and what the top bit does -/

theorem toyCurve_top : IgnoresTopBit toyCurve := by
  intro n m p _ _ hnm
  simp only [toyCurve, hnm]

/-- An accepted proof (`toyPf` with another `r`) in bytes. -/
def toyPfR : LinPfR :=
  ⟨[], toyEnc (toyIota 5), [toyEnc (toyIota 1)], [toyEnc (toyIota 1)], toyEnc (toyIota 6), scalarBytes (1 : ZMod order) 32,
    scalarBytes (1 : ZMod order) 32⟩

theorem toyPfR_accepted :
    verifyLinearR toyCurveEnv toyCurve toyPfR [1, 1] ([3, 5].map toyCurveEnv.pointBytes) 2 0 () none =
      .ok (true, ()) := by
  have h0 := C98_linear_residues (E := toyCurveEnv) toyCurveEnv_curve.toSodiumOk isScalar_bytes toyPfR 1 1
    (standsFor_of_isScalar (isScalar_bytes 1)) (standsFor_of_isScalar (isScalar_bytes 1)) [1, 1] [3, 5] 2 0 ()
    none (by norm_num) (by norm_num) rfl rfl (by simp)
  refine h0.trans ?_
  have := C97_linear_refines (E := toyCurveEnv) toyCurveEnv_curve.toSodiumOk isScalar_bytes
    (⟨[], 5, [1], [1], 6, 1, 1⟩ : LinPf (ZMod order) (ZMod order)) [1, 1] [3, 5] 2 0 () none
  refine this.trans ?_
  have hl : log2roundUp 2 = 1 := by decide
  obtain ⟨b, hb, hiff⟩ := (C11_linear_verifier toyCurveEnv ⟨[], 5, [1], [1], 6, 1, 1⟩ [1, 1] [3, 5] 2 0 () none
    (by norm_num) (by norm_num) rfl rfl (by simp) hl.symm hl.symm).2
    (by simp [deriveLin, foldChallenges, toyCurveEnv])
  rw [hb]
  have : b = true := hiff.2 (by
    simp [LinEq, deriveLin, foldChallenges, toyCurveEnv, foldedSum, subsetProd, List.range_succ]
    norm_num)
  rw [this]

/-- So there are 49 accepted proofs. -/
example : ∃ A R : Fin 7 → Bytes, Function.Injective A ∧ Function.Injective R ∧ A 0 = toyPfR.a ∧
    R 0 = toyPfR.r ∧ ∀ i j, verifyLinearR toyCurveEnv toyCurve { toyPfR with a := A i, r := R j } [1, 1]
      ([3, 5].map toyCurveEnv.pointBytes) 2 0 () none = .ok (true, ()) :=
  C98_linear_malleable (E := toyCurveEnv) toyCurveEnv_curve.toSodiumOk isScalar_bytes toyPfR 1 1
    (isScalar_bytes 1) (isScalar_bytes 1) one_ne_zero one_ne_zero [1, 1] [3, 5] 2 0 () () none (by norm_num) (by norm_num) rfl rfl (by simp)
    toyPfR_accepted

/-- The response `2^255 + 1`: its residue is used with the generator F, the number 1 with the first
generator. -/
def topA : Bytes := zzBytes 32 ((2 ^ 255 + 1 : ℕ) : ℤ)

theorem number_topA : number topA = 2 ^ 255 + 1 := by
  unfold topA
  rw [← leVal_eq, zzBytes_val, Int.natAbs_natCast]
  exact Nat.mod_eq_of_lt (by norm_num)

theorem topErr_topA : topErr topA = -2 ^ 255 := by
  unfold topErr
  rw [if_pos (by rw [number_topA]; exact Nat.le_add_right _ _)]

/-- A proof over one generator with this response. -/
def topPf : LinPf (ZMod order) (ZMod order) := ⟨[], 5, [], [], 2 ^ 256, ((2 ^ 255 + 1 : ℕ) : ZMod order), 0⟩

theorem two_pow_ne : (3 : ZMod order) * 2 ^ 255 ≠ 0 := by
  have h : ((3 * 2 ^ 255 : ℕ) : ZMod order) ≠ 0 := by
    rw [Ne, cast_zero_iff]
    decide +kernel
  intro h'
  apply h
  rw [Nat.cast_mul, Nat.cast_pow]
  exact h'

/-- A proof is accepted although the equation of the protocol does not hold for it: for the response
`2^255 + 1` the equation that is checked is another one. -/
theorem C98_top_bit_accepted :
    verifyLinearR toyCurveEnv toyCurve (linRaw toyCurveEnv topPf topA (scalarBytes (0 : ZMod order) 32)) [1]
      ([3].map toyCurveEnv.pointBytes) 1 0 () none = .ok (true, ()) ∧
    ¬ LinEq toyCurveEnv topPf [1] [3] 0 [] (deriveLin toyCurveEnv topPf 1 ()) := by
  have hl : log2roundUp 1 = 0 := by decide
  have h1 : (number topA % 2 ^ 255 : ℕ) = 1 := by
    rw [number_topA, Nat.add_mod_left]
    exact Nat.mod_eq_of_lt (by norm_num)
  have h2 : number (scalarBytes (0 : ZMod order) 32) = 0 := by
    rw [(isScalar_bytes (0 : ZMod order)).2, ZMod.val_zero]
  have h3 : topErr topA = -2 ^ 255 := by
    unfold topErr
    rw [if_pos (by rw [number_topA]; exact Nat.le_add_right _ _)]
  have h4 := two_pow_ne
  constructor
  · obtain ⟨b, hb, hiff⟩ := C98_linear_exact (E := toyCurveEnv)
      toyCurveEnv_curve.toSodiumOk isScalar_bytes toyCurve_top topPf topA
      (scalarBytes (0 : ZMod order) 32) (zzBytes_length _ _) (isScalar_bytes _).1 (by rw [number_topA]; rfl)
      (by rw [h2]; simp [topPf]) none (fun _ => Or.inr (by rw [h1]; simp)) (Or.inl h2) [1] [3] 1 0 () (by norm_num)
      (by norm_num) rfl rfl (by simp) hl.symm hl.symm (by simp [deriveLin, foldChallenges, topPf])
      (by simp [deriveLin, foldChallenges, topPf])
    rw [hb]
    have : b = true := hiff.2 (by
      rw [Option.map_none, firstErr, h3]
      simp [LinEqErr, deriveLin, foldChallenges, topPf, foldedSum, subsetProd]
      ring)
    rw [this]
  · intro h
    apply h4
    simp [LinEq, deriveLin, foldChallenges, topPf, foldedSum, subsetProd] at h
    linear_combination -h

/-- `C98_linear_accepts` on this proof: the error is there. -/
example : ∃ e : ZMod order, e = -2 ^ 255 ∧ ∃ α ρ : ZMod order, ∃ C Sp : ZMod order,
    ∃ Ls Rs : List (ZMod order), LinEqErr toyCurveEnv ⟨[], C, Ls, Rs, Sp, α, ρ⟩ [1] [3] 0 []
      (deriveLinB toyCurveEnv (linWith (linRaw toyCurveEnv topPf topA (scalarBytes (0 : ZMod order) 32)) α ρ)
        1 ()) e := by
  obtain ⟨α, ρ, e, -, -, h, -, -, -, C, Sp, Ls, Rs, -, -, -, -, h'⟩ := C98_linear_accepts (E := toyCurveEnv)
    toyCurveEnv_curve toyCurve_top rfl isScalar_bytes _ (zzBytes_length _ _) (isScalar_bytes _).1 [1] [3] 1 0 ()
    () none (by norm_num) (by norm_num) rfl rfl (by simp) C98_top_bit_accepted.1
  exact ⟨e, h.trans topErr_topA, α, ρ, C, Sp, Ls, Rs, h'⟩

/-- A quadratic proof over one generator each whose scalars are all 1. -/
def toyQPfR : QuadPf (ZMod order) (ZMod order) := ⟨[], 5, [], [], 5, 1, 1, 1, 1⟩

theorem toyQPfR_accepted :
    verifyQuadraticR toyCurveEnv toyCurve (quadRaw toyCurveEnv toyQPfR (scalarBytes (1 : ZMod order) 32)
      (scalarBytes (1 : ZMod order) 32) (scalarBytes (1 : ZMod order) 32))
      ([3].map toyCurveEnv.pointBytes) ([5].map toyCurveEnv.pointBytes) 1 0 () none none =
      .ok (true, ()) := by
  have hl : log2roundUp 1 = 0 := by decide
  have h1 : number (scalarBytes (1 : ZMod order) 32) = 1 := by
    rw [(isScalar_bytes (1 : ZMod order)).2]
    exact ZMod.val_one order
  have h2 : number (scalarBytes (1 : ZMod order) 32) % 2 ^ 255 = 1 := by
    rw [h1]
    exact Nat.mod_eq_of_lt (by norm_num)
  have h3 : topErr (scalarBytes (1 : ZMod order) 32) = 0 := by
    unfold topErr
    rw [if_neg (by rw [h1]; norm_num)]
  have h4 : ((number (scalarBytes (1 : ZMod order) 32) % 2 ^ 255 : ℕ) : ZMod order) ≠ 0 := by
    rw [h2]
    simp
  have h5 := (isScalar_bytes (1 : ZMod order)).1
  obtain ⟨c, hc, hiff⟩ := C98_quadratic_exact (E := toyCurveEnv) toyCurveEnv_curve.toSodiumOk isScalar_bytes
    toyCurve_top toyQPfR _ _ _ h5 h5 h5 (by rw [h1]; simp [toyQPfR]) (by rw [h1]; simp [toyQPfR])
    (by rw [h2]; simp [toyQPfR]) none none (fun _ => Or.inr h4) (fun _ => Or.inr h4) (Or.inr h4) [3] [5] 1 0 ()
    (by norm_num) (by norm_num) rfl rfl (by simp) (by simp) hl.symm hl.symm (by simp [deriveQuad, foldChallenges, toyQPfR])
  rw [hc]
  have : c = true := hiff.2 (by
    rw [firstErr, h3]
    simp [QuadEqErr, deriveQuad, foldChallenges, toyQPfR, foldedSum, subsetProd]
    norm_num)
  rw [this]

example : ∃ A B R : Fin 7 → Bytes, Function.Injective A ∧ Function.Injective B ∧ Function.Injective R ∧
    ∀ i j k, verifyQuadraticR toyCurveEnv toyCurve (quadRaw toyCurveEnv toyQPfR (A i) (B j) (R k))
      ([3].map toyCurveEnv.pointBytes) ([5].map toyCurveEnv.pointBytes) 1 0 () none none =
      .ok (true, ()) := by
  obtain ⟨A, B, R, hA, hB, hR, -, -, -, h⟩ := C98_quadratic_malleable (E := toyCurveEnv)
    toyCurveEnv_curve.toSodiumOk isScalar_bytes _ 1 1 1 (isScalar_bytes 1) (isScalar_bytes 1) (isScalar_bytes 1)
    one_ne_zero one_ne_zero one_ne_zero [3] [5] 1 0 () () none none (by norm_num) (by norm_num) rfl rfl (by simp)
    (by simp) toyQPfR_accepted
  exact ⟨A, B, R, hA, hB, hR, h⟩

example : ∃ C : ZMod order, toyDec (toyCurveEnv.pointBytes toyQPfR.C) = some (toyIota C) := by
  obtain ⟨_, _, _, _, _, -, -, -, -, -, -, -, C, -, -, -, -, h, -⟩ := C98_quadratic_accepts (E := toyCurveEnv)
    toyCurveEnv_curve toyCurve_top rfl isScalar_bytes _ (isScalar_bytes _).1 (isScalar_bytes _).1
    (isScalar_bytes _).1 [3] [5] 1 0 () () none none (by norm_num) (by norm_num) rfl rfl (by simp) (by simp)
    toyQPfR_accepted
  exact ⟨C, h⟩

/-- The order itself as `r`, which a reader of the proof would take for zero. -/
example (v : Bool × Unit) : verifyLinearR toyCurveEnv toyCurve
    { toyPfR with r := zzBytes 32 ((order : ℕ) : ℤ) } [1, 1] ([3, 5].map toyCurveEnv.pointBytes) 2 0 () none ≠
      .ok v := by
  have hv : number (zzBytes 32 ((order : ℕ) : ℤ)) = order := by
    rw [← leVal_eq, zzBytes_val, Int.natAbs_natCast]
    exact Nat.mod_eq_of_lt (by unfold order; norm_num)
  refine C98_linear_zero (E := toyCurveEnv) toyCurveEnv_curve.toSodiumOk isScalar_bytes toyCurve_top
    one_ne_zero _ (zzBytes_length _ _) ?_ ?_ _ _ 2 0 () none v
  · change number (zzBytes 32 ((order : ℕ) : ℤ)) ≠ 0
    rw [hv]
    unfold order
    norm_num
  · change ((number (zzBytes 32 ((order : ℕ) : ℤ)) % 2 ^ 255 : ℕ) : ZMod order) = 0
    rw [hv, Nat.mod_eq_of_lt (by unfold order; norm_num), ZMod.natCast_self]

/-- `C98_linear_safe` on a proof of bytes that mean nothing. -/
example : verifyLinearR toyCurveEnv toyCurve ⟨[], [1, 2, 3], [[], [7]], [[255]], [], [4], []⟩ [1, 1]
    [[9], [9, 9]] 2 0 () none ≠ .ub :=
  C98_linear_safe _ _ _ 2 0 () none (by norm_num) (by norm_num) rfl (by simp) (by simp)

end Verif.Props
