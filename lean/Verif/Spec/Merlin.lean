/-
What a Merlin transcript absorbs, independent of the code: a sequence of operations, each with a
flag byte and a string of bytes, cut into blocks of the sponge.
-/
import Verif.Model.Merlin

namespace Verif.Spec
open Verif Verif.Merlin

/-- How one byte of the rate is used: `b` is XORed in, the byte is overwritten with `b`, or it is
given out as pseudo-random output (and zeroed). -/
inductive Cell where
  | xor (b : UInt8)
  | over (b : UInt8)
  | out
  deriving DecidableEq

/-- The effect of a cell on its byte. -/
def Cell.on : Cell → UInt8 → UInt8
  | .xor b, x => x ^^^ b
  | .over b, _ => b
  | .out, _ => 0

/-- A block of the sponge: at most 166 cells, and the position (plus one) at which the last
operation of the block begins, 0 if none begins in it. -/
abbrev Block := List Cell × Nat

/-- Everything absorbed so far: the finished blocks and the current one. -/
structure Trace where
  blocks : List Block
  cur : List Cell
  pb : Nat
  deriving DecidableEq

/-- The cells act on the first bytes of the state. -/
def applyCells : List Cell → Bytes → Bytes
  | c :: cs, x :: st => c.on x :: applyCells cs st
  | _, st => st

/-- XOR of a byte into the state. -/
def xorAt (st : Bytes) (i : Nat) (b : UInt8) : Bytes := st.set i (st.getD i 0 ^^^ b)

/-- One finished block: absorb, pad, permute. -/
def spongeBlock (kf : Bytes → Bytes) (st : Bytes) (b : Block) : Bytes :=
  kf (xorAt (xorAt (xorAt (applyCells b.1 st) b.1.length (UInt8.ofNat b.2)) (b.1.length + 1) 0x04) 167 0x80)

/-- The sponge: the 200-byte state after a trace, from the initial state. -/
def sponge (kf : Bytes → Bytes) (st0 : Bytes) (t : Trace) : Bytes := applyCells t.cur (t.blocks.foldl (spongeBlock kf) st0)

/-- Close the current block. -/
def Trace.close (t : Trace) : Trace := ⟨t.blocks ++ [(t.cur, t.pb)], [], 0⟩

/-- One more cell; a block of 166 cells is closed. -/
def Trace.put (t : Trace) (c : Cell) : Trace :=
  let t' : Trace := { t with cur := t.cur ++ [c] }
  if t'.cur.length = 166 then t'.close else t'

/-- An operation: its flags and its cells. -/
structure SOp where
  flags : UInt8
  cells : List Cell
  deriving DecidableEq

/-- Framing of an operation: the beginning of the previous operation, the flags; then a fresh
block if the C flag (4) or the K flag (32) is set. -/
def Trace.begin (t : Trace) (flags : UInt8) : Trace :=
  let t' := (({ t with pb := t.cur.length + 1 } : Trace).put (.xor (UInt8.ofNat t.pb))).put (.xor flags)
  if flags &&& 36 ≠ 0 ∧ t'.cur ≠ [] then t'.close else t'

/-- A whole operation. -/
def Trace.op (t : Trace) (o : SOp) : Trace := o.cells.foldl Trace.put (t.begin o.flags)

/-- A sequence of operations from the empty trace. -/
def traceOf (ops : List SOp) : Trace := ops.foldl Trace.op ⟨[], [], 0⟩

/-- The operations of a transcript, as used by the proofs. -/
inductive TOp where
  /-- absorb a labelled message -/
  | commit (label message : Bytes)
  /-- draw `n` bytes -/
  | challenge (label : Bytes) (n : Nat)
  deriving DecidableEq

/-- The operations of the sponge that one transcript operation stands for. -/
def TOp.sops : TOp → List SOp
  | .commit l m => [⟨6, (l ++ le4 m.length).map .xor⟩, ⟨2, m.map .xor⟩]
  | .challenge l n => [⟨6, (l ++ le4 n).map .xor⟩, ⟨7, List.replicate n .out⟩]

/-- A transcript: "Merlin v1.0", the protocol label under "dom-sep", and the operations. -/
def transcriptOps (label : Bytes) (ops : List TOp) : List SOp :=
  ⟨6, [77, 101, 114, 108, 105, 110, 32, 118, 49, 46, 48].map .xor⟩ ::
    ((TOp.commit [100, 111, 109, 45, 115, 101, 112] label :: ops).flatMap TOp.sops)

/-- The `n` output bytes drawn after a trace: each is the byte of the sponge at the current
position, which is then zeroed. -/
def outBytes (kf : Bytes → Bytes) (s0 : Bytes) : Trace → Nat → Bytes
  | _, 0 => []
  | t, n + 1 => (sponge kf s0 t).getD t.cur.length 0 :: outBytes kf s0 (t.put .out) n

/-- The outputs of all challenges in a sequence of operations that follows a trace. -/
def challengesOf (kf : Bytes → Bytes) (s0 : Bytes) : Trace → List TOp → List Bytes
  | _, [] => []
  | t, .commit l m :: ops => challengesOf kf s0 ((TOp.commit l m).sops.foldl Trace.op t) ops
  | t, .challenge l n :: ops =>
    outBytes kf s0 ((t.op ⟨6, (l ++ le4 n).map .xor⟩).begin 7) n ::
      challengesOf kf s0 ((TOp.challenge l n).sops.foldl Trace.op t) ops

/-- Running transcript operations: the outputs of the challenges and the state. -/
def runOps (kf : Bytes → Bytes) (s : Strobe) : List TOp → Res (List Bytes × Strobe)
  | [] => .ok ([], s)
  | .commit l m :: ops => do
    let s ← commitBytes kf s l m
    runOps kf s ops
  | .challenge l n :: ops => do
    let r ← challengeBytes kf s l n
    let q ← runOps kf r.2 ops
    .ok (r.1 :: q.1, q.2)

/-- The initial state of the sponge. -/
def st0 (kf : Bytes → Bytes) : Bytes := kf (initBytes ++ List.replicate 182 0)

end Verif.Spec
