/-
Model of /repo/src/libmerlin/merlin.c and /repo/include/libmerlin/merlin.h: Keccak-f[1600],
STROBE-128 and Merlin transcripts.

`uint8_t` counters are natural numbers with explicit reduction mod 256.  An access outside the
200-byte state is `ub`; a failing `assert` is `throw` (the program aborts; with NDEBUG it would
continue).  The union of `uint64_t state[25]` and `uint8_t state_bytes[200]` is read on a
little-endian machine.
-/
import Verif.Model.Transcript

namespace Verif.Merlin
open Verif

/-! ### Keccak-f[1600], merlin.c:21-85 -/

/-- `rho`, merlin.c:24-25. -/
def rho : List UInt64 := [1, 3, 6, 10, 15, 21, 28, 36, 45, 55, 2, 14,
  27, 41, 56, 8, 25, 43, 62, 18, 39, 61, 20, 44]
/-- `pi`, merlin.c:26-27. -/
def pi : List Nat := [10, 7, 11, 17, 18, 3, 5, 16, 8, 21, 24, 4,
  15, 23, 19, 13, 12, 2, 20, 14, 22, 9, 6, 1]
/-- `RC`, merlin.c:28-51. -/
def RC : List UInt64 := [1, 0x8082, 0x800000000000808a, 0x8000000080008000, 0x808b, 0x80000001,
  0x8000000080008081, 0x8000000000008009, 0x8a, 0x88, 0x80008009, 0x8000000a, 0x8000808b,
  0x800000000000008b, 0x8000000000008089, 0x8000000000008003, 0x8000000000008002,
  0x8000000000000080, 0x800a, 0x800000008000000a, 0x8000000080008081, 0x8000000000008080,
  0x80000001, 0x8000000080008008]

/-- `rol`, merlin.c:54. -/
def rol (x s : UInt64) : UInt64 := (x <<< s) ||| (x >>> (64 - s))

/-- `a[i]` for an index of the fixed loops below (all indexes are below 25 resp. 5, and the lists
have that length). -/
def ln (a : List UInt64) (i : Nat) : UInt64 := a.getD i 0

/-- Theta, first loop, merlin.c:72: the column parities. -/
def thetaB (a : List UInt64) : List UInt64 :=
  (List.range 5).map fun x => (List.range 5).foldl (fun b y => b ^^^ ln a (x + 5 * y)) 0

/-- Theta, second loop, merlin.c:73. -/
def thetaA (a : List UInt64) (b : List UInt64) : List UInt64 :=
  (List.range 5).foldl (fun a x => (List.range 5).foldl (fun a y =>
    a.set (5 * y + x) (ln a (5 * y + x) ^^^ (ln b ((x + 4) % 5) ^^^ rol (ln b ((x + 1) % 5)) 1))) a) a

/-- Rho and pi, merlin.c:75-77: (state, t). -/
def rhoPi (a : List UInt64) : List UInt64 × UInt64 :=
  (List.range 24).foldl (fun (p : List UInt64 × UInt64) x =>
    (p.1.set (pi.getD x 0) (rol p.2 (rho.getD x 0)), ln p.1 (pi.getD x 0))) (a, ln a 1)

/-- Chi, merlin.c:79-81. -/
def chi (a : List UInt64) : List UInt64 :=
  (List.range 5).foldl (fun a y =>
    let b := (List.range 5).map fun x => ln a (5 * y + x)
    (List.range 5).foldl (fun a x =>
      a.set (5 * y + x) (ln b x ^^^ ((~~~ (ln b ((x + 1) % 5))) &&& ln b ((x + 2) % 5)))) a) a

/-- Iota, merlin.c:83. -/
def iota (a : List UInt64) (i : Nat) : List UInt64 := a.set 0 (ln a 0 ^^^ RC.getD i 0)

/-- One round, merlin.c:70-84. -/
def round (a : List UInt64) (i : Nat) : List UInt64 :=
  iota (chi (rhoPi (thetaA a (thetaB a))).1) i

/-- `keccakf` on the 25 lanes, merlin.c:63-85. -/
def keccakLanes (a : List UInt64) : List UInt64 := (List.range 24).foldl round a

/-- The 8 bytes of a lane, little endian. -/
def laneBytes (x : UInt64) : Bytes :=
  (List.range 8).map fun i => UInt8.ofNat (x.toNat / 256 ^ i % 256)

/-- The lane stored in 8 bytes, little endian. -/
def laneOf (b : Bytes) : UInt64 :=
  UInt64.ofNat (b.foldr (fun x acc => x.toNat + 256 * acc) 0)

/-- The 25 lanes of the 200-byte state (merlin.h:11-14). -/
def lanes (st : Bytes) : List UInt64 :=
  (List.range 25).map fun i => laneOf ((st.drop (8 * i)).take 8)

/-- `keccakf(ctx->state)` on the bytes. -/
def keccakf (st : Bytes) : Bytes := (keccakLanes (lanes st)).flatMap laneBytes

/-! ### STROBE-128, merlin.c:87-219

The permutation is a parameter `kf`, so that nothing below depends on which permutation it is; the
program is the instance `kf = keccakf`. -/

/-- `STROBE_R`, merlin.c:89. -/
def R : Nat := 166

def FLAG_I : Nat := 1
def FLAG_A : Nat := 2
def FLAG_C : Nat := 4
def FLAG_T : Nat := 8
def FLAG_M : Nat := 16
def FLAG_K : Nat := 32

/-- `merlin_strobe128`, merlin.h:9-18. -/
structure Strobe where
  st : Bytes
  pos : Nat
  posBegin : Nat
  curFlags : Nat
  deriving DecidableEq

/-- `ctx->state_bytes[i] = f(ctx->state_bytes[i])`; undefined outside the 200 bytes. -/
def upd (st : Bytes) (i : Nat) (f : UInt8 → UInt8) : Res Bytes := do
  let b ← rd st i
  .ok (st.set i (f b))

/-- `strobe128_run_f`, merlin.c:98-105. -/
def runF (kf : Bytes → Bytes) (s : Strobe) : Res Strobe := do
  let st ← upd s.st s.pos (· ^^^ UInt8.ofNat s.posBegin)
  let st ← upd st (s.pos + 1) (· ^^^ 0x04)
  let st ← upd st (R + 1) (· ^^^ 0x80)
  .ok { s with st := kf st, pos := 0, posBegin := 0 }

/-- The end of the loop bodies of absorb, overwrite and squeeze: `pos += 1` and run F when the
rate is full. -/
def bump (kf : Bytes → Bytes) (s : Strobe) : Res Strobe :=
  let s := { s with pos := (s.pos + 1) % 256 }
  if s.pos = R then runF kf s else .ok s

/-- `strobe128_absorb`, merlin.c:107-118. -/
def absorb (kf : Bytes → Bytes) (s : Strobe) : Bytes → Res Strobe
  | [] => .ok s
  | d :: ds => do
    let st ← upd s.st s.pos (· ^^^ d)
    let s ← bump kf { s with st := st }
    absorb kf s ds

/-- `strobe128_overwrite`, merlin.c:120-131. -/
def overwrite (kf : Bytes → Bytes) (s : Strobe) : Bytes → Res Strobe
  | [] => .ok s
  | d :: ds => do
    let st ← upd s.st s.pos (fun _ => d)
    let s ← bump kf { s with st := st }
    overwrite kf s ds

/-- `strobe128_squeeze`, merlin.c:133-143: the output and the state. -/
def squeeze (kf : Bytes → Bytes) (s : Strobe) : Nat → Res (Bytes × Strobe)
  | 0 => .ok ([], s)
  | n + 1 => do
    let b ← rd s.st s.pos
    let st ← upd s.st s.pos (fun _ => 0)
    let s ← bump kf { s with st := st }
    let r ← squeeze kf s n
    .ok (b :: r.1, r.2)

/-- `strobe128_begin_op`, merlin.c:145-170. -/
def beginOp (kf : Bytes → Bytes) (s : Strobe) (flags : Nat) (more : Bool) : Res Strobe :=
  if more then (if s.curFlags = flags then .ok s else .throw)
  else if flags &&& FLAG_T ≠ 0 then .throw
  else do
    let oldBegin := s.posBegin
    let s ← absorb kf { s with posBegin := (s.pos + 1) % 256, curFlags := flags }
      [UInt8.ofNat oldBegin, UInt8.ofNat flags]
    if flags &&& (FLAG_C ||| FLAG_K) ≠ 0 ∧ s.pos ≠ 0 then runF kf s else .ok s

/-- `strobe128_meta_ad`, merlin.c:174-180. -/
def metaAd (kf : Bytes → Bytes) (s : Strobe) (data : Bytes) (more : Bool) : Res Strobe := do
  let s ← beginOp kf s (FLAG_C ||| FLAG_A) more
  absorb kf s data

/-- `strobe128_ad`, merlin.c:182-188. -/
def ad (kf : Bytes → Bytes) (s : Strobe) (data : Bytes) (more : Bool) : Res Strobe := do
  let s ← beginOp kf s FLAG_A more
  absorb kf s data

/-- `strobe128_prf`, merlin.c:190-196. -/
def prf (kf : Bytes → Bytes) (s : Strobe) (n : Nat) (more : Bool) : Res (Bytes × Strobe) := do
  let s ← beginOp kf s (FLAG_I ||| FLAG_A ||| FLAG_C) more
  squeeze kf s n

/-- `strobe128_key`, merlin.c:198-204. -/
def key (kf : Bytes → Bytes) (s : Strobe) (data : Bytes) (more : Bool) : Res Strobe := do
  let s ← beginOp kf s (FLAG_C ||| FLAG_A) more
  overwrite kf s data

/-- The 18 bytes of merlin.c:209-210. -/
def initBytes : Bytes := [1, 168, 1, 0, 1, 96, 83, 84, 82, 79, 66, 69, 118, 49, 46, 48, 46, 50]

/-- `strobe128_init`, merlin.c:206-219. -/
def strobeInit (kf : Bytes → Bytes) (label : Bytes) : Res Strobe :=
  metaAd kf { st := kf (initBytes ++ List.replicate 182 0), pos := 0, posBegin := 0, curFlags := 0 }
    label false

/-! ### Merlin transcripts, merlin.c:221-294 -/

/-- The first 4 bytes of a `uint64_t`: `(uint8_t*)&message_len_bytes, 4` (merlin.c:237-239). -/
def le4 (n : Nat) : Bytes := bytesFromIntLoop 4 n

/-- `merlin_transcript_commit_bytes`, merlin.c:231-241. -/
def commitBytes (kf : Bytes → Bytes) (s : Strobe) (label message : Bytes) : Res Strobe := do
  let s ← metaAd kf s label false
  let s ← metaAd kf s (le4 message.length) true
  ad kf s message false

/-- `merlin_transcript_init`, merlin.c:223-229.  The strings are "Merlin v1.0" and "dom-sep". -/
def transcriptInit (kf : Bytes → Bytes) (label : Bytes) : Res Strobe := do
  let s ← strobeInit kf [77, 101, 114, 108, 105, 110, 32, 118, 49, 46, 48]
  commitBytes kf s [100, 111, 109, 45, 115, 101, 112] label

/-- `merlin_transcript_challenge_bytes`, merlin.c:243-253. -/
def challengeBytes (kf : Bytes → Bytes) (s : Strobe) (label : Bytes) (n : Nat) : Res (Bytes × Strobe) := do
  let s ← metaAd kf s label false
  let s ← metaAd kf s (le4 n) true
  prf kf s n false

/-- `merlin_rng`, merlin.h:24-27. -/
structure Rng where
  sctx : Strobe
  finalized : Bool

/-- `merlin_rng_init`, merlin.c:255-258. -/
def rngInit (s : Strobe) : Rng := ⟨s, false⟩

/-- `merlin_rng_commit_witness_bytes`, merlin.c:260-271. -/
def rngCommit (kf : Bytes → Bytes) (r : Rng) (label witness : Bytes) : Res Rng :=
  if r.finalized then .throw
  else do
    let s ← metaAd kf r.sctx label false
    let s ← metaAd kf s (le4 witness.length) true
    let s ← key kf s witness false
    .ok { r with sctx := s }

/-- `merlin_rng_finalize`, merlin.c:273-278 ("rng"); it reads 32 bytes of entropy. -/
def rngFinalize (kf : Bytes → Bytes) (r : Rng) (entropy : Bytes) : Res Rng :=
  if r.finalized then .throw
  else do
    let s ← metaAd kf r.sctx [114, 110, 103] false
    let e ← rdN entropy 32
    let s ← key kf s e false
    .ok ⟨s, true⟩

/-- `merlin_rng_random_bytes`, merlin.c:280-286. -/
def rngRandom (kf : Bytes → Bytes) (r : Rng) (n : Nat) : Res (Bytes × Rng) :=
  if r.finalized then do
    let s ← metaAd kf r.sctx (le4 n) true
    let o ← prf kf s n false
    .ok (o.1, { r with sctx := o.2 })
  else .throw

/-- The witness loop of `newBlindingFactors` (merlin.hpp:158-167): scalar `i` of the list is
committed under the label `bytesFromInt(k+i)`. -/
def witnessLoop (kf : Bytes → Bytes) (r : Rng) (k : Nat) : List Bytes → Res Rng
  | [] => .ok r
  | w :: ws => do
    let r ← rngCommit kf r (bytesFromInt k) w
    witnessLoop kf r (k + 1) ws

/-- The part of `newBlindingFactors` that commits the witnesses, merlin.hpp:155-168 (`ys` is `none`
for `nullptr`).  Reading past the end of an array is undefined behaviour. -/
def commitWitness (kf : Bytes → Bytes) (r : Rng) (label : Bytes) (n : Nat) (xes : List Bytes)
    (ys : Option (List Bytes)) : Res Rng :=
  if n = 0 then .ok r else do
    let xs ← rdN xes n
    let r ← rngCommit kf r label (xs.headD [])
    let r ← witnessLoop kf r 1 xs.tail
    match ys with
    | none => .ok r
    | some ys => do
      let yl ← rdN ys n
      witnessLoop kf r n yl

/-- `MerlinBPctx::newBlindingFactors`, merlin.hpp:146-187, on the encodings of the witness scalars:
the 128 bytes from which the two scalars are reduced, and the transcript context after the call
(`mctx` is only read, line 150; the copy is local). -/
def newBlindingFactors (kf : Bytes → Bytes) (mctx : Strobe) (label : Bytes) (n : Nat) (xes : List Bytes)
    (ys : Option (List Bytes)) (entropy : Bytes) : Res (Bytes × Bytes × Strobe) := do
  let r ← commitWitness kf (rngInit mctx) label n xes ys
  let r ← rngFinalize kf r entropy
  let o ← rngRandom kf r 128
  .ok (o.1.take 64, o.1.drop 64, mctx)

end Verif.Merlin
