/-
Properties C50, C51, C52, C53: Merlin transcripts.
-/
import Verif.Lemmas.Merlin
import Verif.Props.Bulletproof

namespace Verif.Props
open Verif Verif.Spec Verif.Merlin

/-! ### C50: no overrun, no assertion failure -/

/-- Everything about one transcript run. -/
theorem run_rel (label : Bytes) (ops : List TOp) :
    ∃ s0 s, transcriptInit keccakf label = .ok s0 ∧
      runOps keccakf s0 ops = .ok (challengesOf keccakf (st0 keccakf) (traceOf (transcriptOps label [])) ops, s) ∧
      Rel keccakf (st0 keccakf) s (traceOf (transcriptOps label ops)) ∧
      TInv (traceOf (transcriptOps label ops)) := by
  have hi0 : TInv ⟨[], [], 0⟩ := by simp [TInv]
  obtain ⟨s0, h1, h2, -⟩ := init_rel (kf := keccakf) keccakf_length label
  have hi : TInv (traceOf (transcriptOps label [])) := hi0.ops _
  obtain ⟨s, h3, h4⟩ := runOps_rel (kf := keccakf) keccakf_length (st0_length keccakf_length) ops h2 hi
  refine ⟨s0, s, h1, h3, ?_, hi0.ops _⟩
  have : traceOf (transcriptOps label ops) =
      (ops.flatMap TOp.sops).foldl Trace.op (traceOf (transcriptOps label [])) := by
    rw [traceOf, traceOf, ← List.foldl_append]
    unfold transcriptOps
    rw [List.flatMap_cons, List.flatMap_cons, List.flatMap_nil, List.append_nil, List.cons_append]
  rw [this]; exact h4

/-- **C50, transcripts.** For every protocol label and every sequence of commit and challenge
operations of any lengths: no access outside the 200-byte state, no assertion failure; the position
stays below 166 and the state has 200 bytes. -/
theorem C50_transcript (label : Bytes) (ops : List TOp) :
    ∃ outs s, (do let s ← transcriptInit keccakf label; runOps keccakf s ops) = .ok (outs, s) ∧
      s.st.length = 200 ∧ s.pos < 166 ∧ s.posBegin ≤ 166 := by
  obtain ⟨s0, s, h1, h2, h3, h4⟩ := run_rel label ops
  refine ⟨_, s, by rw [h1, Res.ok_bind, h2], ?_, ?_, ?_⟩
  · rw [h3.st]; exact sponge_length keccakf_length _ (st0_length keccakf_length) _
  · rw [h3.pos]; exact h4.1
  · rw [h3.pb]; exact h4.2

/-- **C50, challenge lengths.** Each challenge returns exactly the number of bytes asked for. -/
theorem C50_challenge_length (label : Bytes) (ops : List TOp) (l : Bytes) (n : Nat) (s : Strobe) (outs : List Bytes)
    (h : (do let s ← transcriptInit keccakf label; runOps keccakf s ops) = .ok (outs, s)) :
    ∃ o s', challengeBytes keccakf s l n = .ok (o, s') ∧ o.length = n := by
  obtain ⟨s0, s1, h1, h2, h3, h4⟩ := run_rel label ops
  rw [h1, Res.ok_bind, h2] at h
  obtain ⟨rfl⟩ : s1 = s := congrArg Prod.snd (Res.ok.inj h)
  obtain ⟨o, s', h5, h6, -⟩ := challenge_rel keccakf_length (st0_length keccakf_length) h3 h4 l n
  exact ⟨o, s', h5, by rw [h6, outBytes_length]⟩

theorem rngCommit_rel {s0 : Bytes} (hs0 : s0.length = 200) {r : Rng} {t : Trace} (h : Rel keccakf s0 r.sctx t)
    (hi : TInv t) (hf : r.finalized = false) (l w : Bytes) :
    ∃ r', rngCommit keccakf r l w = .ok r' ∧ r'.finalized = false ∧
      ∃ t', Rel keccakf s0 r'.sctx t' ∧ TInv t' := by
  obtain ⟨s1, h1, h2, h3⟩ := metaAd_rel keccakf_length hs0 h hi l
  obtain ⟨s2, h4, h5, h6⟩ := metaAd_more keccakf_length hs0 h2 (hi.op _) h3 (le4 w.length)
  rw [op_append] at h5
  obtain ⟨s3, h7, h8, h9⟩ := key_rel keccakf_length hs0 h5 (hi.op _) w
  refine ⟨{ r with sctx := s3 }, ?_, hf, _, h8, (hi.op _).op _⟩
  unfold rngCommit
  rw [if_neg (by rw [hf]; simp), h1, Res.ok_bind, h4, Res.ok_bind, h7, Res.ok_bind]

theorem witnessLoop_rel {s0 : Bytes} (hs0 : s0.length = 200) (ws : List Bytes) :
    ∀ {r : Rng} {t : Trace} (k : Nat), Rel keccakf s0 r.sctx t → TInv t → r.finalized = false →
    ∃ r', witnessLoop keccakf r k ws = .ok r' ∧ r'.finalized = false ∧
      ∃ t', Rel keccakf s0 r'.sctx t' ∧ TInv t' := by
  induction ws with
  | nil => intro r t k h hi hf; exact ⟨r, rfl, hf, t, h, hi⟩
  | cons w ws ih =>
    intro r t k h hi hf
    obtain ⟨r1, h1, h2, t1, h3, h4⟩ := rngCommit_rel hs0 h hi hf (bytesFromInt k) w
    obtain ⟨r2, h5, h6⟩ := ih (k + 1) h3 h4 h2
    exact ⟨r2, by rw [witnessLoop, h1, Res.ok_bind, h5], h6⟩

theorem rngFinalize_rel {s0 : Bytes} (hs0 : s0.length = 200) {r : Rng} {t : Trace} (h : Rel keccakf s0 r.sctx t)
    (hi : TInv t) (hf : r.finalized = false) (e : Bytes) (he : 32 ≤ e.length) :
    ∃ r', rngFinalize keccakf r e = .ok r' ∧ r'.finalized = true ∧ r'.sctx.curFlags = 6 ∧
      ∃ t', Rel keccakf s0 r'.sctx t' ∧ TInv t' := by
  obtain ⟨s1, h1, h2, h3⟩ := metaAd_rel keccakf_length hs0 h hi [114, 110, 103]
  obtain ⟨s2, h4, h5, h6⟩ := key_rel keccakf_length hs0 h2 (hi.op _) (e.take 32)
  refine ⟨⟨s2, true⟩, ?_, rfl, h6, _, h5, (hi.op _).op _⟩
  unfold rngFinalize
  rw [if_neg (by rw [hf]; simp), h1, Res.ok_bind, rdN_ok he, Res.ok_bind, h4, Res.ok_bind]

theorem rngRandom_rel {s0 : Bytes} (hs0 : s0.length = 200) {r : Rng} {t : Trace} (h : Rel keccakf s0 r.sctx t)
    (hi : TInv t) (hf : r.finalized = true) (hc : r.sctx.curFlags = 6) (n : Nat) :
    ∃ o r', rngRandom keccakf r n = .ok (o, r') ∧ o.length = n ∧ r'.finalized = true ∧
      r'.sctx.curFlags = 7 := by
  obtain ⟨s2, h4, h5, h6⟩ := metaAd_more keccakf_length hs0 h hi hc (le4 n)
  obtain ⟨o, s3, h7, h8, h9, h10⟩ := prf_rel keccakf_length hs0 h5 (TInv.putAll _ hi) n
  refine ⟨o, { r with sctx := s3 }, ?_, by rw [h8, outBytes_length], hf, h10⟩
  unfold rngRandom
  rw [if_pos hf, h4, Res.ok_bind, h7, Res.ok_bind]

/-- The sequence of calls the library makes on a `merlin_rng`: commit some labelled witnesses,
finalize with entropy, draw bytes once. -/
def rngRun (s : Strobe) (ws : List (Bytes × Bytes)) (entropy : Bytes) (n : Nat) : Res (Bytes × Rng) := do
  let r ← ws.foldlM (fun r w => rngCommit keccakf r w.1 w.2) (rngInit s)
  let r ← rngFinalize keccakf r entropy
  rngRandom keccakf r n

theorem foldlM_rel {s0 : Bytes} (hs0 : s0.length = 200) (ws : List (Bytes × Bytes)) :
    ∀ {r : Rng} {t : Trace}, Rel keccakf s0 r.sctx t → TInv t → r.finalized = false →
    ∃ r', ws.foldlM (fun r w => rngCommit keccakf r w.1 w.2) r = .ok r' ∧ r'.finalized = false ∧
      ∃ t', Rel keccakf s0 r'.sctx t' ∧ TInv t' := by
  induction ws with
  | nil => intro r t h hi hf; exact ⟨r, rfl, hf, t, h, hi⟩
  | cons w ws ih =>
    intro r t h hi hf
    obtain ⟨r1, h1, h2, t1, h3, h4⟩ := rngCommit_rel hs0 h hi hf w.1 w.2
    obtain ⟨r2, h5, h6⟩ := ih h3 h4 h2
    exact ⟨r2, by rw [List.foldlM_cons, h1, Res.ok_bind, h5], h6⟩

/-- **C50, random number generator.** From every reachable transcript, for every list of witnesses
and every 32 bytes of entropy, the sequence commit*, finalize, random succeeds and gives the number
of bytes asked for; drawing a second time always fails the assertion on the operation's flags. -/
theorem C50_rng (label : Bytes) (ops : List TOp) (s : Strobe) (outs : List Bytes)
    (h : (do let s ← transcriptInit keccakf label; runOps keccakf s ops) = .ok (outs, s))
    (ws : List (Bytes × Bytes)) (entropy : Bytes) (he : 32 ≤ entropy.length) (n : Nat) :
    ∃ o r, rngRun s ws entropy n = .ok (o, r) ∧ o.length = n ∧
      ∀ m, rngRandom keccakf r m = .throw := by
  obtain ⟨s0, s1, h1, h2, h3, h4⟩ := run_rel label ops
  rw [h1, Res.ok_bind, h2] at h
  obtain ⟨rfl⟩ : s1 = s := congrArg Prod.snd (Res.ok.inj h)
  have hl := st0_length keccakf_length
  obtain ⟨r1, a1, a2, t1, a3, a4⟩ := foldlM_rel hl ws (r := rngInit s) h3 h4 rfl
  obtain ⟨r2, b1, b2, b3, t2, b4, b5⟩ := rngFinalize_rel hl a3 a4 a2 entropy he
  obtain ⟨o, r3, c1, c2, c3, c4⟩ := rngRandom_rel hl b4 b5 b2 b3 n
  refine ⟨o, r3, ?_, c2, ?_⟩
  · unfold rngRun
    rw [a1, Res.ok_bind, b1, Res.ok_bind, c1]
  · intro m
    unfold rngRandom metaAd beginOp
    rw [if_pos c3, if_pos rfl, if_neg (by rw [c4]; decide)]
    rfl

/-- **C50, wrong order.** Drawing before finalizing, and committing or finalizing after it, fail
the assertions. -/
theorem C50_rng_order (r : Rng) (l w e : Bytes) (n : Nat) :
    (r.finalized = false → rngRandom keccakf r n = .throw) ∧
    (r.finalized = true → rngCommit keccakf r l w = .throw ∧ rngFinalize keccakf r e = .throw) := by
  refine ⟨fun h => ?_, fun h => ⟨?_, ?_⟩⟩
  · unfold rngRandom; rw [h]; rfl
  · unfold rngCommit; rw [if_pos h]
  · unfold rngFinalize; rw [if_pos h]

/-! ### C51: the encoding of a transcript is injective -/

/-- **C51, the state is the sponge of what was absorbed.** The 200-byte state after a run is the
sponge evaluated on the cells of the run's operations, and the challenges are the sponge's output
bytes. -/
theorem C51_sponge (label : Bytes) (ops : List TOp) (outs : List Bytes) (s : Strobe)
    (h : (do let s ← transcriptInit keccakf label; runOps keccakf s ops) = .ok (outs, s)) :
    s.st = sponge keccakf (st0 keccakf) (traceOf (transcriptOps label ops)) ∧
    s.pos = (traceOf (transcriptOps label ops)).cur.length ∧
    outs = challengesOf keccakf (st0 keccakf) (traceOf (transcriptOps label [])) ops := by
  obtain ⟨s0, s1, h1, h2, h3, h4⟩ := run_rel label ops
  rw [h1, Res.ok_bind, h2] at h
  have e := Res.ok.inj h
  obtain ⟨rfl⟩ : s1 = s := congrArg Prod.snd e
  exact ⟨h3.st, h3.pos, (congrArg Prod.fst e).symm⟩

/-- **C51.** Two transcripts that absorb the same blocks have the same protocol label and the same
sequence of labelled messages and challenges, with no bound on their lengths. -/
theorem C51_injective (label label' : Bytes) (ops ops' : List TOp)
    (h : traceOf (transcriptOps label ops) = traceOf (transcriptOps label' ops')) :
    label = label' ∧ ops = ops' := by
  have h1 := traceOf_inj h
  unfold transcriptOps at h1
  have h2 := sops_inj _ _ (List.cons.inj h1).2
  simp only [List.cons.injEq, TOp.commit.injEq, true_and] at h2
  exact h2

/-- **C51, collisions.** If two different transcripts lead to the same state then the blocks that they absorb are
different inputs that the sponge maps to the same state. -/
theorem C51_collision (label label' : Bytes) (ops ops' : List TOp) (outs outs' : List Bytes) (s : Strobe)
    (h : (do let s ← transcriptInit keccakf label; runOps keccakf s ops) = .ok (outs, s))
    (h' : (do let s ← transcriptInit keccakf label'; runOps keccakf s ops') = .ok (outs', s))
    (hne : (label, ops) ≠ (label', ops')) :
    traceOf (transcriptOps label ops) ≠ traceOf (transcriptOps label' ops') ∧
    sponge keccakf (st0 keccakf) (traceOf (transcriptOps label ops)) =
      sponge keccakf (st0 keccakf) (traceOf (transcriptOps label' ops')) := by
  refine ⟨fun he => hne ?_, (C51_sponge label ops outs s h).1.symm.trans (C51_sponge label' ops' outs' s h').1⟩
  have := C51_injective label label' ops ops' he
  rw [this.1, this.2]

/-- The 168 bytes of the rate that a block of absorbed bytes is XORed in as: the bytes, the begin
mark, `04`, zeros, and `80` in the last byte. -/
def padBlock (d : Bytes) (pb : Nat) : Bytes :=
  xorAt (xorAt (xorAt (d ++ List.replicate (168 - d.length) 0) d.length (UInt8.ofNat pb)) (d.length + 1) 0x04) 167 0x80

theorem padBlock_short (d : Bytes) (pb : Nat) (h : d.length < 166) :
    padBlock d pb = d ++ [UInt8.ofNat pb, 0x04] ++ List.replicate (165 - d.length) 0 ++ [0x80] := by
  obtain ⟨k, hk⟩ : ∃ k, 168 - d.length = k + 3 := ⟨168 - d.length - 3, by omega⟩
  have hk' : 165 - d.length = k := by omega
  unfold padBlock
  rw [hk, hk']
  have e1 : List.replicate (k + 3) (0 : UInt8) = 0 :: 0 :: (List.replicate k 0 ++ [0]) := by
    rw [List.replicate_succ, List.replicate_succ, List.replicate_succ']
  rw [e1]
  have s1 : xorAt (d ++ 0 :: 0 :: (List.replicate k 0 ++ [0])) d.length (UInt8.ofNat pb) =
      d ++ (UInt8.ofNat pb) :: 0 :: (List.replicate k 0 ++ [0]) := by
    unfold xorAt
    simp [List.set_append_right, List.getD_eq_getElem?_getD]
  have s2 : xorAt (d ++ (UInt8.ofNat pb) :: 0 :: (List.replicate k 0 ++ [0])) (d.length + 1) 0x04 =
      d ++ (UInt8.ofNat pb) :: 0x04 :: (List.replicate k 0 ++ [0]) := by
    unfold xorAt
    simp [List.set_append_right, List.getD_eq_getElem?_getD]
  rw [s1, s2]
  have e2 : d ++ (UInt8.ofNat pb) :: 0x04 :: (List.replicate k 0 ++ [0]) =
      (d ++ [UInt8.ofNat pb, 0x04] ++ List.replicate k 0) ++ [0] := by simp
  have l2 : (d ++ [UInt8.ofNat pb, 0x04] ++ List.replicate k 0).length = 167 := by
    simp; omega
  rw [e2]
  unfold xorAt
  rw [List.set_append_right _ _ (by omega), l2, List.getD_eq_getElem?_getD,
    List.getElem?_append_right (by omega), l2]
  simp

theorem padBlock_full (d : Bytes) (pb : Nat) (h : d.length = 166) :
    padBlock d pb = d ++ [UInt8.ofNat pb, 0x84] := by
  unfold padBlock
  rw [h, show 168 - 166 = 2 from rfl]
  have e1 : List.replicate 2 (0 : UInt8) = [0, 0] := rfl
  have s1 : xorAt (d ++ [0, 0]) 166 (UInt8.ofNat pb) = d ++ [UInt8.ofNat pb, 0] := by
    unfold xorAt
    simp [List.set_append_right, List.getD_eq_getElem?_getD, ← h]
  have s2 : xorAt (d ++ [UInt8.ofNat pb, 0]) (166 + 1) 0x04 = d ++ [UInt8.ofNat pb, 0x04] := by
    unfold xorAt
    simp [List.set_append_right, List.getD_eq_getElem?_getD, ← h]
  have s3 : xorAt (d ++ [UInt8.ofNat pb, 0x04]) 167 0x80 = d ++ [UInt8.ofNat pb, 0x84] := by
    unfold xorAt
    rw [show (167 : Nat) = d.length + 1 by omega]
    simp only [List.getD_eq_getElem?_getD]
    rw [List.set_append_right _ _ (by omega), List.getElem?_append_right (by omega)]
    simp
    decide
  rw [e1, s1, s2, s3]

/-- **C51, padding.** Blocks with different contents or different begin marks are different after
padding. -/
theorem C51_padding (d d' : Bytes) (pb pb' : Nat) (h : d.length ≤ 166) (h' : d'.length ≤ 166)
    (hp : pb ≤ 166) (hp' : pb' ≤ 166) (he : padBlock d pb = padBlock d' pb') : d = d' ∧ pb = pb' := by
  have hb : UInt8.ofNat pb = UInt8.ofNat pb' → pb = pb' := by
    intro h
    have := congrArg UInt8.toNat h
    simp at this; omega
  have hz : ∀ (k k' : Nat) (a a' : Bytes), a ++ [(0x04 : UInt8)] ++ List.replicate k 0 =
      a' ++ [0x04] ++ List.replicate k' 0 → a = a' := by
    intro k k' a a' h
    have h1 : a ++ (0x04 : UInt8) :: List.replicate k 0 = a' ++ 0x04 :: List.replicate k' 0 := by simpa using h
    exact (split_unique (fun b : UInt8 => b ≠ 0) h1 (by decide) (by decide)
      (fun z hz => by rw [List.eq_of_mem_replicate hz]; simp)
      (fun z hz => by rw [List.eq_of_mem_replicate hz]; simp)).1
  rcases Nat.lt_or_eq_of_le h with h | h <;> rcases Nat.lt_or_eq_of_le h' with h' | h'
  · rw [padBlock_short d pb h, padBlock_short d' pb' h'] at he
    have h1 := (snoc_inj he).1
    have h2 := hz _ _ (d ++ [UInt8.ofNat pb]) (d' ++ [UInt8.ofNat pb']) (by simpa using h1)
    exact ⟨(snoc_inj h2).1, hb (snoc_inj h2).2⟩
  · rw [padBlock_short d pb h, padBlock_full d' pb' h', List.append_cons d' (UInt8.ofNat pb') [0x84]] at he
    exact absurd (snoc_inj he).2 (by decide)
  · rw [padBlock_full d pb h, padBlock_short d' pb' h', List.append_cons d (UInt8.ofNat pb) [0x84]] at he
    exact absurd (snoc_inj he).2 (by decide)
  · rw [padBlock_full d pb h, padBlock_full d' pb' h'] at he
    have h1 := List.append_inj' he rfl
    have h2 := (List.cons.inj h1.2).1
    exact ⟨h1.1, hb h2⟩

/-- Two different transcripts: the same bytes split differently into label and message. -/
example : traceOf (transcriptOps [1] [.commit [2] [3, 4]]) ≠ traceOf (transcriptOps [1] [.commit [2, 3] [4]]) :=
  fun h => by simpa using (C51_injective _ _ _ _ h).2

/-! ### C52: constraints are bound by the transcript -/

section
variable {F G : Type} [Field F] [AddCommGroup G] [Module F G]

/-- The same environment with a transcript that records the operations. -/
def recEnv (E : Env F G) : Env F G :=
  { E with
    St := List TOp
    init := fun _ => []
    commit := fun st l m => st ++ [.commit l m]
    challenge := fun st l n => ([], st ++ [.challenge l n]) }

/-- What processing one linear constraint absorbs. -/
def linOps (E : Env F G) (label : Bytes) (c : LinConstraint F) : List TOp :=
  [.commit label []] ++
    c.terms.map (fun x => .commit (bytesFromInt (throughInt x.1)) (E.scalarBytes x.2)) ++
    [.commit [98] (E.scalarBytes c.equalsTo)]

/-- What processing one quadratic constraint absorbs. -/
def quadOps (E : Env F G) (label : Bytes) (c : QuadConstraint F) : List TOp :=
  [.commit label [], .commit [105, 110, 100, 101, 120, 101, 115] (c.indexes.map bytesFromInt).flatten,
    .commit [98] (E.scalarBytes c.equalsTo)]

theorem foldl_snoc {α β : Type} (f : α → β) (ts : List α) (st : List β) :
    ts.foldl (fun st x => st ++ [f x]) st = st ++ ts.map f := by
  induction ts generalizing st with
  | nil => simp
  | cons x ts ih => rw [List.foldl_cons, ih]; simp

/-- The recording environment records `linOps` and `quadOps`: this is what the modelled
`processConstraint` functions absorb. -/
theorem recEnv_lin (E : Env F G) (st : List TOp) (label : Bytes) (c : LinConstraint F) :
    (recEnv E).processLin st label c = st ++ linOps E label c := by
  have h : (recEnv E).processLin st label c =
      (c.terms.foldl (fun (st : List TOp) x => st ++ [TOp.commit (bytesFromInt (throughInt x.1)) (E.scalarBytes x.2)])
        (st ++ [.commit label []])) ++ [.commit [98] (E.scalarBytes c.equalsTo)] := rfl
  refine h.trans ?_
  rw [foldl_snoc]
  show st ++ _ ++ _ ++ _ = (st ++ _ : List TOp)
  simp only [linOps, List.append_assoc]

theorem recEnv_quad (E : Env F G) (st : List TOp) (label : Bytes) (c : QuadConstraint F) :
    (recEnv E).processQuad st label c = st ++ quadOps E label c := by
  have h : (recEnv E).processQuad st label c =
    st ++ [.commit label []] ++ [.commit [105, 110, 100, 101, 120, 101, 115] (c.indexes.map bytesFromInt).flatten] ++
      [.commit [98] (E.scalarBytes c.equalsTo)] := rfl
  refine h.trans ?_
  show _ ++ _ ++ _ ++ _ = (st ++ _ : List TOp)
  simp only [quadOps, List.append_assoc, List.cons_append, List.nil_append]

theorem bytesFromIntLoop_inj (k : Nat) : ∀ a b, a < 256 ^ k → b < 256 ^ k →
    bytesFromIntLoop k a = bytesFromIntLoop k b → a = b := by
  induction k with
  | zero => intro a b ha hb _; simp at ha hb; omega
  | succ k ih =>
    intro a b ha hb h
    rw [bytesFromIntLoop, bytesFromIntLoop] at h
    obtain ⟨h1, h2⟩ := List.cons.inj h
    rw [pow_succ] at ha hb
    have h3 := ih (a / 256) (b / 256) (by omega) (by omega) h2
    have h4 := congrArg UInt8.toNat h1
    simp at h4
    omega

theorem bytesFromIntLoop_length (k n : Nat) : (bytesFromIntLoop k n).length = k := by
  induction k generalizing n with
  | zero => rfl
  | succ k ih => rw [bytesFromIntLoop, List.length_cons, ih]

theorem bytesFromInt_length (n : Nat) : (bytesFromInt n).length = 8 := bytesFromIntLoop_length 8 n

theorem throughInt_lt (n : Nat) : throughInt n < 256 ^ 8 := by unfold throughInt; split <;> omega

theorem throughInt_inj (a b : Nat) (ha : a < 2 ^ 32) (hb : b < 2 ^ 32) (h : throughInt a = throughInt b) : a = b := by
  unfold throughInt at h; split at h <;> split at h <;> omega

theorem linOps_append_inj (E : Env F G) (hinj : Function.Injective E.scalarBytes)
    (l l' : Bytes) (c c' : LinConstraint F) (rest rest' : List TOp)
    (hc : ∀ t ∈ c.terms, t.1 < 2 ^ 32) (hc' : ∀ t ∈ c'.terms, t.1 < 2 ^ 32)
    (h : linOps E l c ++ rest = linOps E l' c' ++ rest') : l = l' ∧ c = c' ∧ rest = rest' := by
  have key : ∀ (ts ts' : List (Nat × F)) (e e' : F), (∀ t ∈ ts, t.1 < 2 ^ 32) → (∀ t ∈ ts', t.1 < 2 ^ 32) →
      ts.map (fun x => TOp.commit (bytesFromInt (throughInt x.1)) (E.scalarBytes x.2)) ++
        (TOp.commit [98] (E.scalarBytes e) :: rest) =
      ts'.map (fun x => TOp.commit (bytesFromInt (throughInt x.1)) (E.scalarBytes x.2)) ++
        (TOp.commit [98] (E.scalarBytes e') :: rest') → ts = ts' ∧ e = e' ∧ rest = rest' := by
    intro ts
    induction ts with
    | nil =>
      intro ts' e e' _ _ h
      cases ts' with
      | nil =>
        simp only [List.map_nil, List.nil_append, List.cons.injEq, TOp.commit.injEq, true_and] at h
        exact ⟨rfl, hinj h.1, h.2⟩
      | cons x ts' =>
        simp only [List.map_nil, List.nil_append, List.map_cons, List.cons_append, List.cons.injEq,
          TOp.commit.injEq] at h
        have := congrArg List.length h.1.1
        rw [bytesFromInt_length] at this
        simp at this
    | cons y ts ih =>
      intro ts' e e' hb hb' h
      cases ts' with
      | nil =>
        simp only [List.map_nil, List.nil_append, List.map_cons, List.cons_append, List.cons.injEq,
          TOp.commit.injEq] at h
        have := congrArg List.length h.1.1
        rw [bytesFromInt_length] at this
        simp at this
      | cons x ts' =>
        simp only [List.map_cons, List.cons_append, List.cons.injEq, TOp.commit.injEq] at h
        obtain ⟨⟨h1, h2⟩, h3⟩ := h
        have h4 := throughInt_inj y.1 x.1 (hb _ (by simp)) (hb' _ (by simp))
          (bytesFromIntLoop_inj 8 _ _ (throughInt_lt _) (throughInt_lt _) h1)
        obtain ⟨i1, i2, i3⟩ := ih ts' e e' (fun t ht => hb t (by simp [ht])) (fun t ht => hb' t (by simp [ht])) h3
        exact ⟨by rw [i1, Prod.ext h4 (hinj h2)], i2, i3⟩
  unfold linOps at h
  simp only [List.append_assoc, List.cons_append, List.nil_append, List.cons.injEq, TOp.commit.injEq, and_true] at h
  obtain ⟨h1, h2, h3⟩ := key _ _ _ _ hc hc' h.2
  refine ⟨h.1, ?_, h3⟩
  cases c; cases c'; simp_all

/-- **C52, linear.** The transcript operations recorded while processing a list of labelled linear
constraints determine the list, if all indexes are below `2^32` (and scalars have one encoding). -/
theorem C52_linear (E : Env F G) (hinj : Function.Injective E.scalarBytes) (st : List TOp)
    (cs cs' : List (Bytes × LinConstraint F))
    (hc : ∀ p ∈ cs, ∀ t ∈ p.2.terms, t.1 < 2 ^ 32) (hc' : ∀ p ∈ cs', ∀ t ∈ p.2.terms, t.1 < 2 ^ 32)
    (h : cs.foldl (fun st p => (recEnv E).processLin st p.1 p.2) st =
      cs'.foldl (fun st p => (recEnv E).processLin st p.1 p.2) st) : cs = cs' := by
  have fold : ∀ (cs : List (Bytes × LinConstraint F)) (st : List TOp),
      cs.foldl (fun (st : (recEnv E).St) p => (recEnv E).processLin st p.1 p.2) st =
        st ++ cs.flatMap fun p => linOps E p.1 p.2 := by
    intro cs
    induction cs with
    | nil => intro st; exact (List.append_nil _).symm
    | cons p cs ih =>
      intro st
      refine (ih _).trans ?_
      have h1 := recEnv_lin E st p.1 p.2
      rw [List.flatMap_cons]
      exact (congrArg (fun (x : List TOp) => x ++ cs.flatMap fun p => linOps E p.1 p.2) h1).trans
        (List.append_assoc ..)
  rw [fold, fold] at h
  replace h := List.append_cancel_left h
  clear fold
  induction cs generalizing cs' with
  | nil =>
    cases cs' with
    | nil => rfl
    | cons p cs' => simp [linOps] at h
  | cons p cs ih =>
    cases cs' with
    | nil => simp [linOps] at h
    | cons p' cs' =>
      rw [List.flatMap_cons, List.flatMap_cons] at h
      obtain ⟨h1, h2, h3⟩ := linOps_append_inj E hinj _ _ _ _ _ _ (hc p (by simp)) (hc' p' (by simp)) h
      rw [ih cs' (fun q hq => hc q (by simp [hq])) (fun q hq => hc' q (by simp [hq])) h3, Prod.ext h1 h2]

/-- **C52, linear, large indexes.** Indexes that differ by a multiple of `2^32` are not told apart. -/
theorem C52_linear_collision (E : Env F G) (st : E.St) (label : Bytes) (i k : Nat) (a e : F) :
    E.processLin st label ⟨[(i, a)], e⟩ = E.processLin st label ⟨[(i + k * 2 ^ 32, a)], e⟩ := by
  have : throughInt (i + k * 2 ^ 32) = throughInt i := by
    unfold throughInt; rw [Nat.add_mul_mod_self_right]
  simp only [Env.processLin, List.foldl_cons, List.foldl_nil, this]

/-- **C52, quadratic.** Likewise for quadratic constraints; here every 64-bit index is encoded. -/
theorem C52_quadratic (E : Env F G) (hinj : Function.Injective E.scalarBytes) (st : List TOp)
    (l l' : Bytes) (c c' : QuadConstraint F)
    (hc : ∀ t ∈ c.indexes, t < 2 ^ 64) (hc' : ∀ t ∈ c'.indexes, t < 2 ^ 64)
    (h : (recEnv E).processQuad st l c = (recEnv E).processQuad st l' c') : l = l' ∧ c = c' := by
  rw [recEnv_quad, recEnv_quad] at h
  have h := List.append_cancel_left h
  simp only [quadOps, List.cons.injEq, TOp.commit.injEq, and_true, true_and] at h
  obtain ⟨h1, h2, h3⟩ := h
  have key : ∀ (a b : List Nat), (∀ t ∈ a, t < 2 ^ 64) → (∀ t ∈ b, t < 2 ^ 64) →
      (a.map bytesFromInt).flatten = (b.map bytesFromInt).flatten → a = b := by
    intro a
    induction a with
    | nil =>
      intro b _ _ h
      cases b with
      | nil => rfl
      | cons y b =>
        have := congrArg List.length h
        simp [bytesFromInt_length] at this
        try omega
    | cons x a ih =>
      intro b ha hb h
      cases b with
      | nil =>
        have := congrArg List.length h
        simp [bytesFromInt_length] at this
        try omega
      | cons y b =>
        rw [List.map_cons, List.map_cons, List.flatten_cons, List.flatten_cons] at h
        obtain ⟨g1, g2⟩ := List.append_inj h (by rw [bytesFromInt_length, bytesFromInt_length])
        have := bytesFromIntLoop_inj 8 x y (by have := ha x (by simp); omega) (by have := hb y (by simp); omega) g1
        rw [this, ih b (fun t ht => ha t (by simp [ht])) (fun t ht => hb t (by simp [ht])) g2]
  refine ⟨h1, ?_⟩
  have := key _ _ hc hc' h2
  have := hinj h3
  cases c; cases c'; simp_all

/-- A non-trivial instance: rational "scalars" encoded injectively, two constraints. -/
example (E : Env ℚ ℚ) (hinj : Function.Injective E.scalarBytes) :
    (recEnv E).processLin [] [1] ⟨[(1, 2), (3, 4)], 5⟩ ≠ (recEnv E).processLin [] [1] ⟨[(1, 2)], 5⟩ := by
  intro h
  have := C52_linear E hinj [] [([1], ⟨[(1, 2), (3, 4)], 5⟩)] [([1], ⟨[(1, 2)], 5⟩)]
    (by simp +contextual [or_imp]) (by simp) h
  simp at this

/-! ### C53: deriving blinding factors does not disturb the transcript -/

/-- **C53, the call.** From every reachable transcript, for every label, number of witnesses and
entropy, `newBlindingFactors` succeeds if the arrays hold at least `n` scalars, returns twice 64
bytes, and leaves the transcript as it was. -/
theorem C53_call (plabel : Bytes) (ops : List TOp) (s : Strobe) (outs : List Bytes)
    (h : (do let s ← transcriptInit keccakf plabel; runOps keccakf s ops) = .ok (outs, s))
    (label : Bytes) (n : Nat) (xes : List Bytes) (ys : Option (List Bytes)) (entropy : Bytes)
    (hx : n ≤ xes.length) (hy : ∀ y, ys = some y → n ≤ y.length) (he : 32 ≤ entropy.length) :
    ∃ a b, newBlindingFactors keccakf s label n xes ys entropy = .ok (a, b, s) ∧
      a.length = 64 ∧ b.length = 64 := by
  obtain ⟨s0, s1, h1, h2, h3, h4⟩ := run_rel plabel ops
  rw [h1, Res.ok_bind, h2] at h
  obtain ⟨rfl⟩ : s1 = s := congrArg Prod.snd (Res.ok.inj h)
  have hl := st0_length keccakf_length
  have hw : ∃ r, commitWitness keccakf (rngInit s) label n xes ys = .ok r ∧ r.finalized = false ∧
        ∃ t', Rel keccakf (st0 keccakf) r.sctx t' ∧ TInv t' := by
    unfold commitWitness
    by_cases hn : n = 0
    · rw [if_pos hn]; exact ⟨_, rfl, rfl, _, h3, h4⟩
    · rw [if_neg hn, rdN_ok hx, Res.ok_bind]
      obtain ⟨r1, a1, a2, t1, a3, a4⟩ := rngCommit_rel hl (r := rngInit s) h3 h4 rfl label ((xes.take n).headD [])
      obtain ⟨r2, b1, b2, t2, b3, b4⟩ := witnessLoop_rel hl (xes.take n).tail 1 a3 a4 a2
      rw [a1, Res.ok_bind, b1, Res.ok_bind]
      cases ys with
      | none => exact ⟨_, rfl, b2, _, b3, b4⟩
      | some y =>
        obtain ⟨r3, c1, c2⟩ := witnessLoop_rel hl (y.take n) n b3 b4 b2
        simp only
        rw [rdN_ok (hy y rfl), Res.ok_bind]
        exact ⟨r3, c1, c2⟩
  obtain ⟨r1, a1, a2, t1, a3, a4⟩ := hw
  obtain ⟨r2, b1, b2, b3, t2, b4, b5⟩ := rngFinalize_rel hl a3 a4 a2 entropy he
  obtain ⟨o, r3, c1, c2, c3, c4⟩ := rngRandom_rel hl b4 b5 b2 b3 128
  refine ⟨o.take 64, o.drop 64, ?_, by rw [List.length_take, c2]; rfl, by rw [List.length_drop, c2]⟩
  unfold newBlindingFactors
  rw [a1, Res.ok_bind, b1, Res.ok_bind, c1, Res.ok_bind]

/-- The hypotheses are met after a commitment and a challenge, with two witnesses in each array. -/
example : ∃ s outs a b, (do let s ← transcriptInit keccakf [1, 2]; runOps keccakf s [.commit [3] [4, 5], .challenge [6] 300]) = .ok (outs, s) ∧
    newBlindingFactors keccakf s [7] 2 [[1], [2]] (some [[3], [4]]) (List.replicate 32 9) = .ok (a, b, s) := by
  obtain ⟨outs, s, h, -⟩ := C50_transcript [1, 2] [.commit [3] [4, 5], .challenge [6] 300]
  obtain ⟨a, b, h1, -⟩ := C53_call [1, 2] _ s outs h [7] 2 [[1], [2]] (some [[3], [4]]) (List.replicate 32 9)
    (by simp) (by simp) (by simp)
  exact ⟨s, outs, a, b, h, h1⟩

/-- **C53, linear proofs.** Two runs of the prover from the same transcript that produce the same
proof leave the transcript in the same state, whatever their witnesses, blinding factors, statements
and generators were. -/
theorem C53_linear [DecidableEq F] [DecidableEq G] (E : Env F G) (coins coins' : Nat → F × F) (pf pf' q : LinPf F G) (r r' : F)
    (st s s' : E.St) (as bs as' bs' : List F) (gs gs' : List G) (n : Nat) (hn1 : 1 ≤ n) (hn2 : n ≤ 2 ^ 63)
    (ha : as.length = n) (hb : bs.length = n) (hg : gs.length = n)
    (ha' : as'.length = n) (hb' : bs'.length = n) (hg' : gs'.length = n)
    (hL : pf.Ls = []) (hR : pf.Rs = []) (hL' : pf'.Ls = []) (hR' : pf'.Rs = [])
    (h : proveLinear E coins pf r st as bs gs n = .ok (q, s))
    (h' : proveLinear E coins' pf' r' st as' bs' gs' n = .ok (q, s')) : s = s' := by
  have key : ∀ (coins : Nat → F × F) (pf : LinPf F G) (r : F) (as bs : List F) (gs : List G) (s : E.St),
      as.length = n → bs.length = n → gs.length = n → pf.Ls = [] → pf.Rs = [] →
      proveLinear E coins pf r st as bs gs n = .ok (q, s) → s = (deriveLin E q n st).st := by
    intro coins pf r as bs gs s ha hb hg hL hR h
    rcases proveLinear_spec E coins pf r st as bs gs n hn1 hn2 ha hb hg hL hR with ⟨ht, _⟩ | ⟨q', hq, -⟩
    · rw [ht] at h; cases h
    · rw [hq] at h
      have e := Res.ok.inj h
      have e1 : q' = q := congrArg Prod.fst e
      have e2 := congrArg Prod.snd e
      rw [← e1]; exact e2.symm
  rw [key coins pf r as bs gs s ha hb hg hL hR h, key coins' pf' r' as' bs' gs' s' ha' hb' hg' hL' hR' h']

/-- **C53, quadratic proofs.** -/
theorem C53_quadratic [DecidableEq F] [DecidableEq G] (E : Env F G) (coins coins' : Nat → F × F) (pf pf' q : QuadPf F G) (r r' : F)
    (st s s' : E.St) (as bs as' bs' : List F) (gs hs gs' hs' : List G) (n : Nat) (hn1 : 1 ≤ n) (hn2 : n ≤ 2 ^ 63)
    (ha : as.length = n) (hb : bs.length = n) (hg : gs.length = n) (hh : hs.length = n)
    (ha' : as'.length = n) (hb' : bs'.length = n) (hg' : gs'.length = n) (hh' : hs'.length = n)
    (hL : pf.Ls = []) (hR : pf.Rs = []) (hL' : pf'.Ls = []) (hR' : pf'.Rs = [])
    (h : proveQuadratic E coins pf r st gs as hs bs n = .ok (q, s))
    (h' : proveQuadratic E coins' pf' r' st gs' as' hs' bs' n = .ok (q, s')) : s = s' := by
  have key : ∀ (coins : Nat → F × F) (pf : QuadPf F G) (r : F) (as bs : List F) (gs hs : List G) (s : E.St),
      as.length = n → bs.length = n → gs.length = n → hs.length = n → pf.Ls = [] → pf.Rs = [] →
      proveQuadratic E coins pf r st gs as hs bs n = .ok (q, s) → s = (deriveQuad E q n st).st := by
    intro coins pf r as bs gs hs s ha hb hg hh hL hR h
    rcases proveQuadratic_spec E coins pf r st as bs gs hs n hn1 hn2 ha hb hg hh hL hR with ⟨ht, _⟩ | ⟨q', hq, -⟩
    · rw [ht] at h; cases h
    · rw [hq] at h
      have e := Res.ok.inj h
      have e1 : q' = q := congrArg Prod.fst e
      have e2 := congrArg Prod.snd e
      rw [← e1]; exact e2.symm
  rw [key coins pf r as bs gs hs s ha hb hg hh hL hR h,
    key coins' pf' r' as' bs' gs' hs' s' ha' hb' hg' hh' hL' hR' h']

/-- Two runs with different blinding factors and witnesses whose final states are compared: both
succeed. -/
example : ∃ p s p' s', proveLinear (toyEnv 2) (fun k => ((k : ℚ), 3)) ⟨[1], 7, [], [], 0, 0, 0⟩
      5 [] [1, 2, 3] [4, 5, 6] [7, 8, 9] 3 = .ok (p, s) ∧
    proveLinear (toyEnv 2) (fun k => ((k : ℚ) + 1, 4)) ⟨[1], 7, [], [], 0, 0, 0⟩
      6 [] [1, 1, 3] [4, 5, 6] [7, 8, 9] 3 = .ok (p', s') := by
  obtain ⟨p, s, h, -⟩ := ((C06_linear_prover_total (toyEnv 2) (fun k => ((k : ℚ), 3))
    ⟨[1], 7, [], [], 0, 0, 0⟩ 5 [] [1, 2, 3] [4, 5, 6] [7, 8, 9] 3
    (by norm_num) (by norm_num) rfl rfl rfl rfl rfl).resolve_left
      fun h => linChallenges_ne_zero (toyEnv 2) (by intro b; simp [toyEnv]) _ _ _ _ _ _ _ h.1).2
  obtain ⟨p', s', h', -⟩ := ((C06_linear_prover_total (toyEnv 2) (fun k => ((k : ℚ) + 1, 4))
    ⟨[1], 7, [], [], 0, 0, 0⟩ 6 [] [1, 1, 3] [4, 5, 6] [7, 8, 9] 3
    (by norm_num) (by norm_num) rfl rfl rfl rfl rfl).resolve_left
      fun h => linChallenges_ne_zero (toyEnv 2) (by intro b; simp [toyEnv]) _ _ _ _ _ _ _ h.1).2
  exact ⟨p, s, p', s', h, h'⟩

end

end Verif.Props
