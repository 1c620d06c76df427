/-
Model of /repo/include/merlin.hpp (the C++ wrapper around Merlin transcripts) over an
arbitrary transcript state machine, and of the environment (curve and hash functions)
the proofs run in.  The concrete STROBE code is modelled in `Verif/Model/Merlin.lean`.
-/
import Mathlib.Algebra.Module.Basic
import Mathlib.Algebra.Field.Basic
import Verif.Model.ConstraintTypes

namespace Verif

/-- The interface of libmerlin used by merlin.hpp: `merlin_transcript_init`,
`merlin_transcript_commit_bytes(label, message)` and
`merlin_transcript_challenge_bytes(label, length)` (merlin.h / merlin.c:223-253),
as an arbitrary deterministic state machine. -/
structure Transcript where
  /-- the state, `merlin_transcript` -/
  St : Type
  init : Bytes → St
  commit : St → Bytes → Bytes → St
  challenge : St → Bytes → Nat → Bytes × St

/-- Everything the proof code takes from libsodium and libmerlin. -/
structure Env (F G : Type) extends Transcript where
  /-- `Scalar::dataBytes()`, the 32-byte encoding of a scalar -/
  scalarBytes : F → Bytes
  /-- `Point::dataBytes()`, the 32-byte encoding of a point -/
  pointBytes : G → Bytes
  /-- `crypto_core_ed25519_scalar_reduce` -/
  scalarReduce : Bytes → F
  /-- `crypto_core_ed25519_from_uniform` -/
  fromUniform : Bytes → G
  /-- `hashToCurve`, point25519.hpp -/
  hashToCurve : Bytes → G
  /-- `Point::base()` -/
  base : G

/-- The loop of `bytesFromInt`, merlin.hpp:49-52, for the remaining `k` bytes:
`buf[i] = num & 0xff; num >>= 8`. -/
def bytesFromIntLoop : Nat → Nat → Bytes
  | 0, _ => []
  | k + 1, num => UInt8.ofNat (num % 256) :: bytesFromIntLoop k (num / 256)

/-- `bytesFromInt`, merlin.hpp:48-53 (`sizeof(size_t) = 8`; little endian). -/
def bytesFromInt (num : Nat) : Bytes := bytesFromIntLoop 8 num

/-- The conversion `size_t -> int -> size_t` that `int idx = x.first; bytesFromInt(buf, idx)`
performs (merlin.hpp:99-101): keep the low 32 bits and sign-extend them to 64 bits. -/
def throughInt (n : Nat) : Nat :=
  if n % 2 ^ 32 < 2 ^ 31 then n % 2 ^ 32 else n % 2 ^ 32 + (2 ^ 64 - 2 ^ 32)

/-- `std::to_string` of a natural number, as ASCII bytes. -/
def decBytes (n : Nat) : Bytes :=
  if _h : n < 10 then [UInt8.ofNat (48 + n)]
  else decBytes (n / 10) ++ [UInt8.ofNat (48 + n % 10)]
termination_by n
decreasing_by omega

section
variable {F G : Type}

/-- `MerlinBPctx::MerlinBPctx(label)`, merlin.hpp:65-67. -/
def Env.newCtx (E : Env F G) (label : Bytes) : E.St := E.init label

/-- `MerlinBPctx::processScalar`, merlin.hpp:70-74. -/
def Env.processScalar (E : Env F G) (st : E.St) (label : Bytes) (s : F) : E.St :=
  E.commit st label (E.scalarBytes s)

/-- `MerlinBPctx::processPoint`, merlin.hpp:87-91. -/
def Env.processPoint (E : Env F G) (st : E.St) (label : Bytes) (p : G) : E.St :=
  E.commit st label (E.pointBytes p)

/-- `MerlinBPctx::processScalarVector`, merlin.hpp:75-84: only the first scalar is labelled. -/
def Env.processScalarVector (E : Env F G) (st : E.St) (label : Bytes) : List F → E.St
  | [] => st
  | s :: ss => ss.foldl (fun st s => E.commit st [] (E.scalarBytes s)) (E.commit st label (E.scalarBytes s))

/-- `MerlinBPctx::processConstraint(LinConstraint)`, merlin.hpp:94-106.  `[98]` is "b". -/
def Env.processLin (E : Env F G) (st : E.St) (label : Bytes) (c : LinConstraint F) : E.St :=
  let st := E.commit st label []
  let st := c.terms.foldl
    (fun st x => E.commit st (bytesFromInt (throughInt x.1)) (E.scalarBytes x.2)) st
  E.processScalar st [98] c.equalsTo

/-- `MerlinBPctx::processConstraint(QuadConstraint)`, merlin.hpp:108-122.
`[105,110,100,101,120,101,115]` is "indexes", `[98]` is "b". -/
def Env.processQuad (E : Env F G) (st : E.St) (label : Bytes) (c : QuadConstraint F) : E.St :=
  let st := E.commit st label []
  let buf := (c.indexes.map bytesFromInt).flatten
  let st := E.commit st [105, 110, 100, 101, 120, 101, 115] buf
  E.processScalar st [98] c.equalsTo

/-- `MerlinBPctx::newChallenge`, merlin.hpp:125-132: 64 challenge bytes, reduced mod P. -/
def Env.newChallenge (E : Env F G) (st : E.St) (label : Bytes) : F × E.St :=
  let r := E.challenge st label 64
  (E.scalarReduce r.1, r.2)

/-- `MerlinBPctx::newGenerator`, merlin.hpp:135-142: 32 challenge bytes mapped to the group. -/
def Env.newGenerator (E : Env F G) (st : E.St) (label : Bytes) : G × E.St :=
  let r := E.challenge st label 32
  (E.fromUniform r.1, r.2)

/-- The conversion of the `size_t` argument to the `int` parameter of `getG`/`getH`
followed by `std::to_string(int)` (pedersen.hpp:140-147). -/
def intLabel (i : Nat) : Bytes :=
  if i % 2 ^ 32 < 2 ^ 31 then decBytes (i % 2 ^ 32) else 45 :: decBytes (2 ^ 32 - i % 2 ^ 32)

/-- The hash input of `G_i`: `tag + "G" + to_string(i)`, pedersen.hpp:141 (71 = 'G'). -/
def labelG (tag : Bytes) (i : Nat) : Bytes := tag ++ [71] ++ intLabel i

/-- The hash input of `H_i`: `tag + "H" + to_string(i)`, pedersen.hpp:145 (72 = 'H'). -/
def labelH (tag : Bytes) (i : Nat) : Bytes := tag ++ [72] ++ intLabel i

/-- `PedersenContext::getG`, pedersen.hpp:140-143. -/
def Env.getG (E : Env F G) (tag : Bytes) (i : Nat) : G := E.hashToCurve (labelG tag i)

/-- `PedersenContext::getH`, pedersen.hpp:144-147. -/
def Env.getH (E : Env F G) (tag : Bytes) (i : Nat) : G := E.hashToCurve (labelH tag i)

end

end Verif
