/-
C97: the verifiers on proofs whose points are arbitrary bytes.

A proof that is read from a stream carries points as bytes that nobody has checked.  On the bytes
of points of the main subgroup the verifiers do what Model/Bulletproof.lean says; on any other
bytes they throw or reject: an accepted proof carries only points of the main subgroup, and for
them the equation holds.  No bytes make them run into undefined behaviour.
-/
import Verif.Lemmas.PointBytes
import Verif.Props.Bulletproof

namespace Verif.Props
open Verif.Sc Verif.Spec

section
variable {K G : Type} [AddCommGroup K] [DecidableEq G] [AddCommGroup G] [Module (ZMod order) G]
  {S : Sodium} {E : Env (ZMod order) G} {enc : K → Bytes} {dec : Bytes → Option K} {ι : G →+ K}

/-- The encoded proof of points of the main subgroup: same verdict, same transcript, same
exceptions as computing with the points. -/
theorem C97_linear_refines (h : SodiumOk S E.pointBytes E.base) (hs : ∀ x, IsScalar (E.scalarBytes x) x)
    (pf : LinPf (ZMod order) G) (bs : List (ZMod order)) (gs : List G) (n : Nat) (eq : ZMod order)
    (st : E.St) (off : Option (List (ZMod order))) :
    verifyLinearB E S (linBytes E pf) bs (gs.map E.pointBytes) n eq st off =
      verifyLinear E pf bs gs n eq st off :=
  verifyLinearB_map ⟨h, hs⟩ pf bs gs n eq st off

theorem C97_quadratic_refines (h : SodiumOk S E.pointBytes E.base)
    (hs : ∀ x, IsScalar (E.scalarBytes x) x) (pf : QuadPf (ZMod order) G) (gs hs' : List G) (n : Nat)
    (eq : ZMod order) (st : E.St) (u v : Option (List (ZMod order))) :
    verifyQuadraticB E S (quadBytes E pf) (gs.map E.pointBytes) (hs'.map E.pointBytes) n eq st u v =
      verifyQuadratic E pf gs hs' n eq st u v :=
  verifyQuadraticB_map ⟨h, hs⟩ pf gs hs' n eq st u v

/-- If the verifier accepts bytes, then C and S decode to points of the main subgroup, all Ls and
Rs are the canonical encodings of points of the main subgroup, and the linear equation holds for
these points and for the challenges hashed from the bytes. -/
theorem C97_linear_accepts (h : CurveOk S enc dec ι E.base) (hp : E.pointBytes = fun g => enc (ι g))
    (hs : ∀ x, IsScalar (E.scalarBytes x) x) (pf : LinPfB (ZMod order)) (bs : List (ZMod order))
    (gs : List G) (n : Nat) (eq : ZMod order) (st st' : E.St) (off : Option (List (ZMod order)))
    (hn1 : 1 ≤ n) (hn2 : n ≤ 2 ^ 63) (hb : bs.length = n) (hg : gs.length = n)
    (ho : ∀ o, off = some o → o.length = n)
    (acc : verifyLinearB E S pf bs (gs.map E.pointBytes) n eq st off = .ok (true, st')) :
    0 ∉ (deriveLinB E pf n st).xs ∧ (deriveLinB E pf n st).x ≠ 0 ∧ st' = (deriveLinB E pf n st).st ∧
    ∃ (C Sp : G) (Ls Rs : List G), dec pf.C = some (ι C) ∧ dec pf.S = some (ι Sp) ∧
      pf.Ls = Ls.map (fun g => enc (ι g)) ∧ pf.Rs = Rs.map (fun g => enc (ι g)) ∧
      LinEq E ⟨pf.tag, C, Ls, Rs, Sp, pf.a, pf.r⟩ bs gs eq (off.getD []) (deriveLinB E pf n st) := by
  have := verifyLinearB_accepts h hp hs pf bs gs n eq st st' off hn1 hn2 hb hg ho acc
  rwa [hp] at this

/-- The same for the quadratic verifier.  It multiplies by the last challenge without inverting
it, so in the case that this challenge is zero S1 and S2 are not looked at. -/
theorem C97_quadratic_accepts (h : CurveOk S enc dec ι E.base)
    (hp : E.pointBytes = fun g => enc (ι g)) (hs : ∀ x, IsScalar (E.scalarBytes x) x)
    (pf : QuadPfB (ZMod order)) (gs hs' : List G) (n : Nat)
    (eq : ZMod order) (st st' : E.St) (u v : Option (List (ZMod order)))
    (hn1 : 1 ≤ n) (hn2 : n ≤ 2 ^ 63) (hg : gs.length = n) (hh : hs'.length = n)
    (hu : ∀ o, u = some o → o.length = n) (hv : ∀ o, v = some o → o.length = n)
    (acc : verifyQuadraticB E S pf (gs.map E.pointBytes) (hs'.map E.pointBytes) n eq st u v =
      .ok (true, st')) :
    0 ∉ (deriveQuadB E pf n st).xs ∧ st' = (deriveQuadB E pf n st).st ∧
    ∃ (C : G) (Ls Rs : List G) (S1 S2 : G), dec pf.C = some (ι C) ∧
      pf.Ls = Ls.map (fun g => enc (ι g)) ∧ pf.Rs = Rs.map (fun g => enc (ι g)) ∧
      ((deriveQuadB E pf n st).x ≠ 0 → dec pf.S1 = some (ι S1) ∧ pf.S2 = enc (ι S2)) ∧
      QuadEq E ⟨pf.tag, C, Ls, Rs, S1, S2, pf.a, pf.b, pf.r⟩ gs hs' eq (u.getD []) (v.getD [])
        (deriveQuadB E pf n st) := by
  have := verifyQuadraticB_accepts h hp hs pf gs hs' n eq st st' u v hn1 hn2 hg hh hu hv acc
  rwa [hp] at this

/-- No bytes in the proof or among the generators, and no counts of Ls and Rs, make the verifiers
access memory out of bounds: whatever `libsodium` answers, they return or throw. -/
theorem C97_linear_safe (pf : LinPfB (ZMod order)) (bs : List (ZMod order)) (gs : List Bytes)
    (n : Nat) (eq : ZMod order) (st : E.St) (off : Option (List (ZMod order)))
    (hn1 : 1 ≤ n) (hn2 : n ≤ 2 ^ 63) (hb : bs.length = n) (hg : n ≤ gs.length)
    (ho : ∀ o, off = some o → n ≤ o.length) :
    verifyLinearB E S pf bs gs n eq st off ≠ .ub :=
  verifyLinearB_ne_ub pf bs gs n eq st off hn1 hn2 hb hg ho

theorem C97_quadratic_safe (pf : QuadPfB (ZMod order)) (gs hs : List Bytes)
    (n : Nat) (eq : ZMod order) (st : E.St) (u v : Option (List (ZMod order)))
    (hn1 : 1 ≤ n) (hn2 : n ≤ 2 ^ 63) (hg : n ≤ gs.length) (hh : n ≤ hs.length)
    (hu : ∀ o, u = some o → n ≤ o.length) (hv : ∀ o, v = some o → n ≤ o.length) :
    verifyQuadraticB E S pf gs hs n eq st u v ≠ .ub :=
  verifyQuadraticB_ne_ub pf gs hs n eq st u v hn1 hn2 hg hh hu hv

end

/-! ### The hypotheses can be met: a curve with points outside of the main subgroup -/

/-- All "points": a residue modulo the group order and one modulo 8. -/
abbrev ToyK := ZMod order × ZMod 8

/-- 33 bytes: the first residue in 32 bytes, the other one in the last byte. -/
def toyEnc (k : ToyK) : Bytes := scalarBytes k.1 32 ++ [UInt8.ofNat k.2.val]

/-- Decoding accepts every 33 bytes, also non-canonical ones. -/
def toyDec (b : Bytes) : Option ToyK :=
  if b.length = 33 then some ((number (b.take 32) : ZMod order), ((b.getD 32 0).toNat : ZMod 8)) else none

def toyIota : ZMod order →+ ToyK := AddMonoidHom.inl _ _

theorem toyDec_enc (k : ToyK) : toyDec (toyEnc k) = some k := by
  obtain ⟨a, t⟩ := k
  have hl : (scalarBytes a 32).length = 32 := (isScalar_bytes a).1
  have h1 : ((number (scalarBytes a 32) : ℕ) : ZMod order) = a := by
    have := isScalar_cast (isScalar_bytes a)
    rwa [leVal_eq] at this
  have h2 : ((t.val : ℕ) : ZMod 8) = t := ZMod.natCast_zmod_val t
  have h3 : t.val < 8 := t.val_lt
  show (if (scalarBytes a 32 ++ [UInt8.ofNat t.val]).length = 33 then
    some ((number ((scalarBytes a 32 ++ [UInt8.ofNat t.val]).take 32) : ZMod order),
      (((scalarBytes a 32 ++ [UInt8.ofNat t.val]).getD 32 0).toNat : ZMod 8)) else none) = some (a, t)
  rw [if_pos (by simp [hl]), List.take_append_of_le_length (by omega),
    List.take_of_length_le (by omega), h1]
  have : ((scalarBytes a 32 ++ [UInt8.ofNat t.val]).getD 32 0).toNat = t.val := by
    rw [List.getD_append_right _ _ _ _ (by omega)]
    simp [hl]
    omega
  rw [this, h2]

theorem toyEnc_inj : Function.Injective toyEnc := fun a b h => by
  have := toyDec_enc a
  rw [h, toyDec_enc] at this
  exact (Option.some.inj this).symm

open Classical in
/-- A library that behaves as `CurveOk` demands. -/
noncomputable def toyCurve : Sodium where
  add p q := (toyDec p).bind fun a => (toyDec q).map fun b => toyEnc (a + b)
  sub p q := (toyDec p).bind fun a => (toyDec q).map fun b => toyEnc (a - b)
  mul n p := (toyDec p).bind fun a =>
    if p = toyEnc (toyIota a.1) ∧ a.1 ≠ 0 ∧ ((number n % 2 ^ 255 : ℕ) : ZMod order) • a.1 ≠ 0 then
      some (toyEnc (toyIota (((number n % 2 ^ 255 : ℕ) : ZMod order) • a.1))) else none
  mulBase n := if (number n : ZMod order) • (1 : ZMod order) ≠ 0 then
    some (toyEnc (toyIota ((number n : ZMod order) • (1 : ZMod order)))) else none
  identityPoint := toyEnc (toyIota 0)
  basePoint := toyEnc (toyIota 1)

theorem toyCurve_ok : CurveOk (G := ZMod order) toyCurve toyEnc toyDec toyIota 1 where
  inj a b h := by
    have := toyEnc_inj h
    simpa [toyIota] using this
  add p q := by simp [toyCurve, toyDec_enc]
  sub p q := by simp [toyCurve, toyDec_enc]
  mul n p _ hlt := by
    simp only [toyCurve, toyDec_enc, Option.bind_some, Nat.mod_eq_of_lt hlt]
    have : (toyIota p).1 = p := rfl
    rw [this]
    by_cases hc : p ≠ 0 ∧ (number n : ZMod order) • p ≠ 0
    · rw [if_pos hc, if_pos ⟨rfl, hc⟩]
    · rw [if_neg hc, if_neg (fun h => hc h.2)]
  mulBase n _ _ := by simp only [toyCurve]
  identityPoint := rfl
  basePoint := rfl
  dec_enc := toyDec_enc
  add_any p q r hr := by
    simp only [toyCurve, Option.bind_eq_some_iff, Option.map_eq_some_iff] at hr
    obtain ⟨a, ha, b, hb, e⟩ := hr
    exact ⟨a, b, ha, hb, e.symm⟩
  mul_any n p r hr := by
    simp only [toyCurve, Option.bind_eq_some_iff] at hr
    obtain ⟨a, ha, hr⟩ := hr
    split at hr
    · rename_i hc
      exact ⟨a.1, hc.1⟩
    · cases hr

/-- An environment over this curve; every challenge is 1, the generator F is 2. -/
abbrev toyCurveEnv : Env (ZMod order) (ZMod order) where
  St := Unit
  init _ := ()
  commit _ _ _ := ()
  challenge _ _ n := (List.replicate n 0, ())
  pointBytes g := toyEnc (toyIota g)
  scalarBytes x := scalarBytes x 32
  fromUniform _ := 2
  scalarReduce _ := 1
  hashToCurve _ := 3
  base := 1

theorem toyCurveEnv_curve : CurveOk toyCurve toyEnc toyDec toyIota toyCurveEnv.base := toyCurve_ok

/-- A proof over two generators whose equation holds. -/
def toyPf : LinPf (ZMod order) (ZMod order) := ⟨[], 5, [1], [1], 5, 1, 0⟩

theorem toyPf_accepted :
    verifyLinearB toyCurveEnv toyCurve (linBytes toyCurveEnv toyPf) [1, 1]
      ([3, 5].map toyCurveEnv.pointBytes) 2 0 () none = .ok (true, ()) := by
  rw [C97_linear_refines toyCurveEnv_curve.toSodiumOk isScalar_bytes]
  have hl : log2roundUp 2 = 1 := by decide
  obtain ⟨b, hb, hiff⟩ := (C11_linear_verifier toyCurveEnv toyPf [1, 1] [3, 5] 2 0 () none (by norm_num)
    (by norm_num) rfl rfl (by simp) hl.symm hl.symm).2
    (by simp [deriveLin, foldChallenges, toyCurveEnv, toyPf])
  rw [hb]
  have : b = true := hiff.2 (by
    simp [LinEq, deriveLin, foldChallenges, toyCurveEnv, toyPf, foldedSum, subsetProd, List.range_succ]
    norm_num)
  rw [this]

/-- Hypotheses and premise of `C97_linear_accepts` are met by this proof. -/
example : ∃ (C Sp : ZMod order) (Ls Rs : List (ZMod order)),
    toyDec (linBytes toyCurveEnv toyPf).C = some (toyIota C) ∧
    toyDec (linBytes toyCurveEnv toyPf).S = some (toyIota Sp) ∧
    (linBytes toyCurveEnv toyPf).Ls = Ls.map (fun g => toyEnc (toyIota g)) ∧
    (linBytes toyCurveEnv toyPf).Rs = Rs.map (fun g => toyEnc (toyIota g)) ∧
    LinEq toyCurveEnv ⟨[], C, Ls, Rs, Sp, 1, 0⟩ [1, 1] [3, 5] 0 []
      (deriveLinB toyCurveEnv (linBytes toyCurveEnv toyPf) 2 ()) :=
  (C97_linear_accepts toyCurveEnv_curve rfl isScalar_bytes _ _ _ 2 0 () () none (by norm_num)
    (by norm_num) rfl rfl (by simp) toyPf_accepted).2.2.2

/-- The same proof with the point of order two added to C is a proof that decodes, but it is not
accepted. -/
example : toyDec (toyEnc (5, 4)) = some (5, 4) ∧ ∀ st',
    verifyLinearB toyCurveEnv toyCurve { linBytes toyCurveEnv toyPf with C := toyEnc (5, 4) } [1, 1]
      ([3, 5].map toyCurveEnv.pointBytes) 2 0 () none ≠ .ok (true, st') := by
  refine ⟨toyDec_enc _, fun st' h => ?_⟩
  obtain ⟨C, -, -, -, hC, -⟩ := (C97_linear_accepts toyCurveEnv_curve rfl isScalar_bytes _ _ _ 2 0 () st'
    none (by norm_num) (by norm_num) rfl rfl (by simp) h).2.2.2
  have h1 : toyDec (toyEnc (5, 4)) = some (toyIota C) := hC
  rw [toyDec_enc] at h1
  have h2 : (4 : ZMod 8) = 0 := congrArg Prod.snd (Option.some.inj h1)
  exact absurd h2 (by decide)

/-- Nor with the last byte of an L changed so that it does not encode a point canonically. -/
example : ∀ st',
    verifyLinearB toyCurveEnv toyCurve
      { linBytes toyCurveEnv toyPf with Ls := [scalarBytes (1 : ZMod order) 32 ++ [8]] } [1, 1]
      ([3, 5].map toyCurveEnv.pointBytes) 2 0 () none ≠ .ok (true, st') := by
  intro st' h
  obtain ⟨-, -, Ls, -, -, -, hL, -⟩ := (C97_linear_accepts toyCurveEnv_curve rfl isScalar_bytes _ _ _ 2 0 ()
    st' none (by norm_num) (by norm_num) rfl rfl (by simp) h).2.2.2
  have h1 : [scalarBytes (1 : ZMod order) 32 ++ [8]] = Ls.map (fun g => toyEnc (toyIota g)) := hL
  cases Ls with
  | nil => simp at h1
  | cons g t =>
    have h2 := congrArg (fun l : List Bytes => (l.headD []).getLast?) h1
    simp [toyEnc, toyIota] at h2

/-- A quadratic proof over one generator each that is accepted, so that `C97_quadratic_accepts`
applies to it. -/
def toyQPf : QuadPf (ZMod order) (ZMod order) := ⟨[], 5, [], [], 4, 1, 1, 1, 0⟩

theorem toyQPf_accepted :
    verifyQuadraticB toyCurveEnv toyCurve (quadBytes toyCurveEnv toyQPf)
      ([3].map toyCurveEnv.pointBytes) ([5].map toyCurveEnv.pointBytes) 1 0 () none none =
      .ok (true, ()) := by
  rw [C97_quadratic_refines toyCurveEnv_curve.toSodiumOk isScalar_bytes]
  have hl : log2roundUp 1 = 0 := by decide
  obtain ⟨b, hb, hiff⟩ := (C11_quadratic_verifier toyCurveEnv toyQPf [3] [5] 1 0 () none none (by norm_num)
    (by norm_num) rfl rfl (by simp) (by simp) hl.symm hl.symm).2
    (by simp [deriveQuad, foldChallenges, toyCurveEnv, toyQPf])
  rw [hb]
  have : b = true := hiff.2 (by
    simp [QuadEq, deriveQuad, foldChallenges, toyCurveEnv, toyQPf, foldedSum, subsetProd]
    norm_num)
  rw [this]

example : ∃ C : ZMod order, toyDec (quadBytes toyCurveEnv toyQPf).C = some (toyIota C) :=
  let ⟨C, _, _, _, _, h, _⟩ := (C97_quadratic_accepts toyCurveEnv_curve rfl isScalar_bytes _ [3] [5] 1 0 ()
    () none none (by norm_num) (by norm_num) rfl rfl (by simp) (by simp) toyQPf_accepted).2.2
  ⟨C, h⟩

/-- `C97_linear_safe` on a proof of bytes that mean nothing. -/
example : verifyLinearB toyCurveEnv toyCurve ⟨[], [1, 2, 3], [[], [7]], [[255]], [], 1, 1⟩ [1, 1]
    [[9], [9, 9]] 2 0 () none ≠ .ub :=
  C97_linear_safe _ _ _ 2 0 () none (by norm_num) (by norm_num) rfl (by simp) (by simp)

end Verif.Props
