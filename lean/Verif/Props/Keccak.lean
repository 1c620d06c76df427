/-
Properties C60 and C61: the permutation under the transcript is the one of FIPS 202, and it is a
permutation.
-/
import Verif.Lemmas.KeccakPerm
import Mathlib.Data.Set.Finite.List
import Mathlib.Data.Fintype.EquivFin

namespace Verif.Props
open Verif Verif.Merlin

/-- **C60.** Whatever the 200 bytes of the state, `keccakf` leaves 200 bytes, and bit `z` of lane `(x,y)` of
the result is what Keccak-f[1600] of FIPS 202 gives. -/
theorem C60_keccakf (st : Bytes) (h : st.length = 200) :
    (keccakf st).length = 200 ∧ Spec.Keccak.stateOf (keccakf st) = Spec.Keccak.keccakF (Spec.Keccak.stateOf st) :=
  ⟨keccakf_length' st, keccakf_bits st h⟩

/-- Every state array is the one of a 200-byte string, so C60 speaks about all of Keccak-f[1600]: the first
and last bit of lane (4,4) of the string that ends with 0x80. -/
example : Spec.Keccak.stateOf (List.replicate 199 0 ++ [0x80]) 4 4 63 = true ∧
    Spec.Keccak.stateOf (List.replicate 199 0 ++ [0x80]) 4 4 0 = false := by decide +kernel

/-- The first round constants the specification gives are the published ones: 1 and 0x8082. -/
example : (∀ z, Spec.Keccak.roundConstant 0 z = Nat.testBit 1 z.val) ∧
    (∀ z, Spec.Keccak.roundConstant 1 z = Nat.testBit 0x8082 z.val) ∧
    (∀ z, Spec.Keccak.roundConstant 23 z = Nat.testBit 0x8000000080008008 z.val) := by decide +kernel

/-- The offsets the specification gives are the published ones. -/
example : (Spec.Keccak.offset 1 0, Spec.Keccak.offset 3 2 % 64, Spec.Keccak.offset 0 0) = (1, 25, 0) := by decide +kernel

/-- An injective map of the byte strings of one length to themselves is onto. -/
theorem inj_surj (f : Bytes → Bytes) (N : ℕ) (hl : ∀ b, b.length = N → (f b).length = N)
    (hi : ∀ a b, a.length = N → b.length = N → f a = f b → a = b) (out : Bytes) (h : out.length = N) :
    ∃ st, st.length = N ∧ f st = out := by
  haveI : Finite UInt8 := Finite.of_injective (fun b : UInt8 => b.toFin) fun _ _ h => UInt8.toFin_inj.1 h
  haveI : Finite {b : Bytes // b.length = N} := (List.finite_length_eq UInt8 N).to_subtype
  have hf : Function.Injective fun b : {b : Bytes // b.length = N} => (⟨f b.1, hl b.1 b.2⟩ : {b : Bytes // b.length = N}) :=
    fun a b e => Subtype.ext (hi a.1 b.1 a.2 b.2 (congrArg Subtype.val e))
  obtain ⟨st, hst⟩ := Finite.surjective_of_injective hf ⟨out, h⟩
  exact ⟨st.1, st.2, congrArg Subtype.val hst⟩

/-- **C61.** `keccakf` is a permutation of the 200-byte states: every state comes from exactly one. -/
theorem C61_permutation (out : Bytes) (h : out.length = 200) : ∃! st : Bytes, st.length = 200 ∧ keccakf st = out := by
  obtain ⟨st, h1, h2⟩ := inj_surj keccakf 200 (fun b _ => keccakf_length' b) (fun a b => keccakf_inj a b) out h
  refine ⟨st, ⟨h1, h2⟩, ?_⟩
  rintro b ⟨hb, hk⟩
  exact keccakf_inj b st hb h1 (hk.trans h2.symm)

/-- So two transcripts whose states differ still differ after any number of permutations with nothing absorbed. -/
theorem C61_iterate (a b : Bytes) (ha : a.length = 200) (hb : b.length = 200) (n : Nat) :
    keccakf^[n] a = keccakf^[n] b ↔ a = b := by
  constructor
  · intro h
    induction n generalizing a b with
    | zero => exact h
    | succ n ih =>
      rw [Function.iterate_succ_apply, Function.iterate_succ_apply] at h
      exact keccakf_inj a b ha hb (ih _ _ (keccakf_length' a) (keccakf_length' b) h)
  · rintro rfl; rfl

example : (List.replicate 200 (0 : UInt8)).length = 200 ∧ (List.replicate 199 (0 : UInt8) ++ [1]).length = 200 ∧
    List.replicate 200 (0 : UInt8) ≠ List.replicate 199 0 ++ [1] := by decide +kernel

end Verif.Props
