/-
The environment the library really runs in: Merlin transcripts over Keccak-f[1600] as modelled in
`Verif/Model/Merlin.lean`, scalars modulo the order of the curve with their 32-byte encoding, and a
group given by the libsodium functions on points, which stay parameters.
-/
import Verif.Props.Merlin
import Verif.Props.Scalar

namespace Verif
open Verif.Merlin Verif.Spec

/-- A transcript state that arises from `merlin_transcript_init` (merlin.c:223-229) by
`merlin_transcript_commit_bytes` (merlin.c:231-241) and `merlin_transcript_challenge_bytes`
(merlin.c:243-253): the only states a `MerlinBPctx` (merlin.hpp:62-143) can hold. -/
def Reached (s : Strobe) : Prop :=
  ∃ label ops outs, (do let s ← transcriptInit keccakf label; runOps keccakf s ops) = .ok (outs, s)

/-- The result of a computation that succeeds. -/
noncomputable def theOk {α : Type} (r : Res α) (h : ∃ a, r = .ok a) : α := h.choose

theorem theOk_spec {α : Type} (r : Res α) (h : ∃ a, r = .ok a) : r = .ok (theOk r h) := h.choose_spec

theorem runOps_append (kf : Bytes → Bytes) (ops ops' : List TOp) : ∀ (s s1 s2 : Strobe) (o1 o2 : List Bytes),
    runOps kf s ops = .ok (o1, s1) → runOps kf s1 ops' = .ok (o2, s2) →
      runOps kf s (ops ++ ops') = .ok (o1 ++ o2, s2) := by
  induction ops with
  | nil =>
    intro s s1 s2 o1 o2 h1 h2
    cases h1; exact h2
  | cons o ops ih =>
    intro s s1 s2 o1 o2 h1 h2
    cases o with
    | commit l m =>
      rw [runOps] at h1
      obtain ⟨a, ha, hb⟩ := Res.bind_eq_ok.1 h1
      rw [List.cons_append, runOps, ha, Res.ok_bind, ih _ _ _ _ _ hb h2]
    | challenge l n =>
      rw [runOps] at h1
      obtain ⟨a, ha, hb⟩ := Res.bind_eq_ok.1 h1
      obtain ⟨b, hb1, hb2⟩ := Res.bind_eq_ok.1 hb
      have e := Res.ok.inj hb2
      obtain ⟨rfl⟩ : a.1 :: b.1 = o1 := congrArg Prod.fst e
      obtain ⟨rfl⟩ : b.2 = s1 := congrArg Prod.snd e
      rw [List.cons_append, runOps, ha, Res.ok_bind, ih _ _ _ _ _ hb1 h2, Res.ok_bind]
      rfl

theorem init_ok (label : Bytes) : ∃ s, transcriptInit keccakf label = .ok s := by
  obtain ⟨s0, s, h1, -⟩ := Props.run_rel label []
  exact ⟨s0, h1⟩

theorem init_reached (label : Bytes) : Reached (theOk _ (init_ok label)) :=
  ⟨label, [], [], Res.bind_eq_ok.2 ⟨_, theOk_spec _ (init_ok label), by rw [runOps]⟩⟩

theorem Reached.step {s : Strobe} (h : Reached s) (o : TOp) :
    ∃ o' s', runOps keccakf s [o] = .ok (o', s') ∧ Reached s' := by
  obtain ⟨label, ops, outs, h⟩ := h
  obtain ⟨s0, s1, h1, h2, h3, h4⟩ := Props.run_rel label ops
  rw [h1, Res.ok_bind] at h
  rw [h2] at h
  obtain ⟨rfl⟩ : s1 = s := congrArg Prod.snd (Res.ok.inj h)
  obtain ⟨s', h5, -⟩ := runOps_rel keccakf_length (st0_length keccakf_length) [o] h3 h4
  exact ⟨_, s', h5, label, ops ++ [o], _, by rw [h1, Res.ok_bind, runOps_append _ _ _ _ _ _ _ _ h2 h5]⟩

theorem commit_ok {s : Strobe} (h : Reached s) (l m : Bytes) : ∃ s', commitBytes keccakf s l m = .ok s' := by
  obtain ⟨o, s', h1, -⟩ := h.step (.commit l m)
  rw [runOps] at h1
  obtain ⟨a, ha, -⟩ := Res.bind_eq_ok.1 h1
  exact ⟨a, ha⟩

theorem commit_reached {s : Strobe} (h : Reached s) (l m : Bytes) : Reached (theOk _ (commit_ok h l m)) := by
  obtain ⟨o, s', h1, h2⟩ := h.step (.commit l m)
  rw [runOps, theOk_spec _ (commit_ok h l m), Res.ok_bind] at h1
  cases h1; exact h2

theorem challenge_ok {s : Strobe} (h : Reached s) (l : Bytes) (n : ℕ) :
    ∃ r, challengeBytes keccakf s l n = .ok r := by
  obtain ⟨o, s', h1, -⟩ := h.step (.challenge l n)
  rw [runOps] at h1
  obtain ⟨a, ha, -⟩ := Res.bind_eq_ok.1 h1
  exact ⟨a, ha⟩

theorem challenge_reached {s : Strobe} (h : Reached s) (l : Bytes) (n : ℕ) :
    Reached (theOk _ (challenge_ok h l n)).2 := by
  obtain ⟨o, s', h1, h2⟩ := h.step (.challenge l n)
  rw [runOps, theOk_spec _ (challenge_ok h l n), Res.ok_bind] at h1
  cases h1; exact h2

/-- What libsodium provides on points: the 32-byte encoding (`Point::dataBytes()`),
`crypto_core_ed25519_from_uniform`, `hashToCurve` (point25519.hpp) and the base point.  Not modelled
further. -/
structure Curve (G : Type) where
  pointBytes : G → Bytes
  fromUniform : Bytes → G
  hashToCurve : Bytes → G
  base : G

/-- A transcript state of the library. -/
structure LibState where
  /-- the STROBE state -/
  s : Strobe
  reached : Reached s

/-- `merlin_transcript_init`, merlin.c:223-229 (it always succeeds). -/
noncomputable def libInit (label : Bytes) : LibState := ⟨theOk _ (init_ok label), init_reached label⟩

/-- `merlin_transcript_commit_bytes`, merlin.c:231-241 (it always succeeds on such a state). -/
noncomputable def libCommit (st : LibState) (l m : Bytes) : LibState :=
  ⟨theOk _ (commit_ok st.reached l m), commit_reached st.reached l m⟩

/-- `merlin_transcript_challenge_bytes`, merlin.c:243-253 (it always succeeds on such a state). -/
noncomputable def libChallenge (st : LibState) (l : Bytes) (n : ℕ) : Bytes × LibState :=
  ((theOk _ (challenge_ok st.reached l n)).1,
    ⟨(theOk _ (challenge_ok st.reached l n)).2, challenge_reached st.reached l n⟩)

theorem libInit_spec (label : Bytes) : transcriptInit keccakf label = .ok (libInit label).s := by
  have h := theOk_spec (transcriptInit keccakf label) (init_ok label)
  rw [libInit]; exact h

theorem libCommit_spec (st : LibState) (l m : Bytes) :
    commitBytes keccakf st.s l m = .ok (libCommit st l m).s := by
  unfold libCommit; exact theOk_spec _ _

theorem libChallenge_spec (st : LibState) (l : Bytes) (n : ℕ) :
    challengeBytes keccakf st.s l n = .ok ((libChallenge st l n).1, (libChallenge st l n).2.s) := by
  unfold libChallenge; exact theOk_spec _ _

/-- The environment of the library: `MerlinBPctx` of merlin.hpp:62-143 over the transcripts of
merlin.c:223-253, on the states they can hold; a scalar is encoded by its 32 bytes, little endian
(`Scalar::dataBytes()`, scalar25519.hpp:46-52), and 64 challenge bytes are reduced modulo the group
order (`crypto_core_ed25519_scalar_reduce`, called in merlin.hpp:125-132). -/
noncomputable def libEnv {G : Type} (c : Curve G) : Env (ZMod Regev.P) G where
  St := LibState
  init := libInit
  commit := libCommit
  challenge := libChallenge
  scalarBytes s := Sc.zzBytes 32 s.val
  scalarReduce b := (Sc.leVal b : ZMod Regev.P)
  pointBytes := c.pointBytes
  fromUniform := c.fromUniform
  hashToCurve := c.hashToCurve
  base := c.base

end Verif
