/-
Property C107: the transcripts of C105 and C106 are those of the library for one particular function.
-/
import Verif.Props.FiatShamirAdaptive
import Verif.Props.Library
import Verif.Spec.FiatShamirLibrary

namespace Verif.Props
open Verif Verif.Spec Verif.Merlin Verif.Regev

section
variable {F G : Type}

/-- One event on the transcript of `E`. -/
def entryStep (E : Env F G) (s : E.St) : Entry → E.St
  | .started l => E.init l
  | .absorbed l m => E.commit s l m
  | .drawn l n => (E.challenge s l n).2

/-- The state of the transcript of `E` after a history. -/
def stateAfter (E : Env F G) (st : List Entry) : E.St := st.foldl (entryStep E) (E.init [])

/-- Bytes as 64 values. -/
def asBuf (b : Bytes) : Fin 64 → Fin 256 := fun i => (b.getD i 0).toFin

/-- The function that the transcript of `E` computes. -/
def hashOf (E : Env F G) : Query → Fin 64 → Fin 256 :=
  fun q => asBuf (E.challenge (stateAfter E q.1) q.2.1 q.2.2).1

theorem firstBytes_asBuf (b : Bytes) (n : ℕ) (hn : n ≤ 64) (hb : b.length = n) : firstBytes n (asBuf b) = b := by
  subst hb
  unfold firstBytes bufBytes asBuf
  apply List.ext_getElem
  · simp; omega
  · intro i h1 h2
    rw [List.getElem_take, List.getElem_ofFn]
    show UInt8.ofFin (b.getD i 0).toFin = b[i]
    rw [List.getD_eq_getElem _ _ h2]
    exact UInt8.ofFin_toFin _

/-- The environment whose transcript answers from `hashOf E`. -/
abbrev hashEnv (E : Env F G) : Env F G := oracleEnv E firstBytes (hashOf E)

/-- The same as `stateAfter`, for states of `hashEnv E`. -/
def aft (E : Env F G) (st : (hashEnv E).St) : E.St := stateAfter E st

theorem after_snoc (E : Env F G) (st : List Entry) (e : Entry) : stateAfter E (st ++ [e]) = entryStep E (stateAfter E st) e := by
  simp [stateAfter]

theorem after_commit (E : Env F G) (st : (hashEnv E).St) (l m : Bytes) :
    aft E ((hashEnv E).commit st l m) = E.commit (aft E st) l m := after_snoc E st _

theorem after_challenge (E : Env F G) (st : (hashEnv E).St) (l : Bytes) (n : ℕ) :
    aft E ((hashEnv E).challenge st l n).2 = (E.challenge (aft E st) l n).2 := after_snoc E st _

theorem hash_challenge (E : Env F G) (hE : ∀ st l n, (E.challenge st l n).1.length = n) (st : (hashEnv E).St) (l : Bytes) (n : ℕ) (hn : n ≤ 64) :
    ((hashEnv E).challenge st l n).1 = (E.challenge (aft E st) l n).1 :=
  firstBytes_asBuf _ n hn (hE _ _ _)

variable [Field F] [AddCommGroup G] [Module F G]

theorem hash_fold (E : Env F G) (hE : ∀ st l n, (E.challenge st l n).1.length = n) (Ls : List G) :
    ∀ (Rs : List G) (n : ℕ) (st : (hashEnv E).St),
      (foldChallenges (hashEnv E) n st Ls Rs).1 = (foldChallenges E n (aft E st) Ls Rs).1 ∧
      aft E (foldChallenges (hashEnv E) n st Ls Rs).2 = (foldChallenges E n (aft E st) Ls Rs).2 := by
  induction Ls with
  | nil => intro Rs n st; simp only [foldChallenges]; exact ⟨trivial, trivial⟩
  | cons L Ls ih =>
    intro Rs n st
    cases Rs with
    | nil => simp only [foldChallenges]; exact ⟨trivial, trivial⟩
    | cons R Rs =>
      obtain ⟨i1, i2⟩ := ih Rs (2 ^ Ls.length) ((hashEnv E).challenge ((hashEnv E).commit ((hashEnv E).commit st (decBytes n ++ [76])
        (E.pointBytes L)) [82] (E.pointBytes R)) [120] 64).2
      rw [after_challenge, after_commit, after_commit] at i1 i2
      have hc := hash_challenge E hE ((hashEnv E).commit ((hashEnv E).commit st (decBytes n ++ [76])
        (E.pointBytes L)) [82] (E.pointBytes R)) [120] 64 le_rfl
      rw [after_commit, after_commit] at hc
      refine ⟨?_, i2⟩
      simp only [foldChallenges]
      exact congrArg₂ List.cons (congrArg E.scalarReduce hc) i1

/-- The verifier of linear proofs derives the same generator and the same challenges. -/
theorem hash_deriveLin (E : Env F G) (hE : ∀ st l n, (E.challenge st l n).1.length = n) (pf : LinPf F G) (n : ℕ) (st : (hashEnv E).St) :
    (deriveLin (hashEnv E) pf n st).Fg = (deriveLin E pf n (aft E st)).Fg ∧
    (deriveLin (hashEnv E) pf n st).xs = (deriveLin E pf n (aft E st)).xs ∧
    (deriveLin (hashEnv E) pf n st).x = (deriveLin E pf n (aft E st)).x ∧
    aft E (deriveLin (hashEnv E) pf n st).st = (deriveLin E pf n (aft E st)).st := by
  have h1 := after_commit E st [67] (E.pointBytes pf.C)
  have h2 := hash_challenge E hE ((hashEnv E).commit st [67] (E.pointBytes pf.C)) [70] 32 (by norm_num)
  have h3 := after_challenge E ((hashEnv E).commit st [67] (E.pointBytes pf.C)) [70] 32
  rw [h1] at h2 h3
  obtain ⟨f1, f2⟩ := hash_fold E hE pf.Ls pf.Rs n ((hashEnv E).challenge ((hashEnv E).commit st [67] (E.pointBytes pf.C)) [70] 32).2
  rw [h3] at f1 f2
  have h4 := after_commit E (foldChallenges (hashEnv E) n ((hashEnv E).challenge ((hashEnv E).commit st [67] (E.pointBytes pf.C)) [70] 32).2
    pf.Ls pf.Rs).2 [83] (E.pointBytes pf.S)
  rw [f2] at h4
  have h5 := hash_challenge E hE ((hashEnv E).commit (foldChallenges (hashEnv E) n ((hashEnv E).challenge ((hashEnv E).commit st [67]
    (E.pointBytes pf.C)) [70] 32).2 pf.Ls pf.Rs).2 [83] (E.pointBytes pf.S)) [120] 64 le_rfl
  have h6 := after_challenge E ((hashEnv E).commit (foldChallenges (hashEnv E) n ((hashEnv E).challenge ((hashEnv E).commit st [67]
    (E.pointBytes pf.C)) [70] 32).2 pf.Ls pf.Rs).2 [83] (E.pointBytes pf.S)) [120] 64
  rw [h4] at h5 h6
  exact ⟨congrArg E.fromUniform h2, f1, congrArg E.scalarReduce h5, h6⟩

/-- The same for quadratic proofs. -/
theorem hash_deriveQuad (E : Env F G) (hE : ∀ st l n, (E.challenge st l n).1.length = n) (pf : QuadPf F G) (n : ℕ) (st : (hashEnv E).St) :
    (deriveQuad (hashEnv E) pf n st).Fg = (deriveQuad E pf n (aft E st)).Fg ∧
    (deriveQuad (hashEnv E) pf n st).xs = (deriveQuad E pf n (aft E st)).xs ∧
    (deriveQuad (hashEnv E) pf n st).x = (deriveQuad E pf n (aft E st)).x ∧
    aft E (deriveQuad (hashEnv E) pf n st).st = (deriveQuad E pf n (aft E st)).st := by
  have h1 := after_commit E st [67] (E.pointBytes pf.C)
  have h2 := hash_challenge E hE ((hashEnv E).commit st [67] (E.pointBytes pf.C)) [70] 32 (by norm_num)
  have h3 := after_challenge E ((hashEnv E).commit st [67] (E.pointBytes pf.C)) [70] 32
  rw [h1] at h2 h3
  obtain ⟨f1, f2⟩ := hash_fold E hE pf.Ls pf.Rs n ((hashEnv E).challenge ((hashEnv E).commit st [67] (E.pointBytes pf.C)) [70] 32).2
  rw [h3] at f1 f2
  have h4 := after_commit E (foldChallenges (hashEnv E) n ((hashEnv E).challenge ((hashEnv E).commit st [67] (E.pointBytes pf.C)) [70] 32).2
    pf.Ls pf.Rs).2 [83, 49] (E.pointBytes pf.S1)
  rw [f2] at h4
  have h4' := after_commit E ((hashEnv E).commit (foldChallenges (hashEnv E) n ((hashEnv E).challenge ((hashEnv E).commit st [67]
    (E.pointBytes pf.C)) [70] 32).2 pf.Ls pf.Rs).2 [83, 49] (E.pointBytes pf.S1)) [83, 50] (E.pointBytes pf.S2)
  rw [h4] at h4'
  have h5 := hash_challenge E hE ((hashEnv E).commit ((hashEnv E).commit (foldChallenges (hashEnv E) n ((hashEnv E).challenge
    ((hashEnv E).commit st [67] (E.pointBytes pf.C)) [70] 32).2 pf.Ls pf.Rs).2 [83, 49] (E.pointBytes pf.S1)) [83, 50]
    (E.pointBytes pf.S2)) [120] 64 le_rfl
  have h6 := after_challenge E ((hashEnv E).commit ((hashEnv E).commit (foldChallenges (hashEnv E) n ((hashEnv E).challenge
    ((hashEnv E).commit st [67] (E.pointBytes pf.C)) [70] 32).2 pf.Ls pf.Rs).2 [83, 49] (E.pointBytes pf.S1)) [83, 50]
    (E.pointBytes pf.S2)) [120] 64
  rw [h4'] at h5 h6
  exact ⟨congrArg E.fromUniform h2, f1, congrArg E.scalarReduce h5, h6⟩

variable [DecidableEq F] [DecidableEq G]

/-- `verifyLinear` gives the same verdict, or throws in both. -/
theorem hash_verifyLinear (E : Env F G) (hE : ∀ st l n, (E.challenge st l n).1.length = n) (pf : LinPf F G) (bs : List F)
    (gs : List G) (n : Nat) (eq : F) (st : (hashEnv E).St) (off : Option (List F)) (hn1 : 1 ≤ n) (hn2 : n ≤ 2 ^ 63)
    (hb : bs.length = n) (hg : gs.length = n) (ho : ∀ o, off = some o → o.length = n) :
    (verifyLinear (hashEnv E) pf bs gs n eq st off = .throw ∧ verifyLinear E pf bs gs n eq (aft E st) off = .throw) ∨
    ∃ b st', verifyLinear (hashEnv E) pf bs gs n eq st off = .ok (b, st') ∧
      verifyLinear E pf bs gs n eq (aft E st) off = .ok (b, aft E st') := by
  by_cases hl : pf.Ls.length ≠ log2roundUp n ∨ pf.Rs.length ≠ log2roundUp n
  · exact Or.inl ⟨verifyLinear_len _ _ _ _ _ _ _ _ hl, verifyLinear_len _ _ _ _ _ _ _ _ hl⟩
  · push Not at hl
    obtain ⟨d1, d2, d3, d4⟩ := hash_deriveLin E hE pf n st
    have v1 := C11_linear_verifier (hashEnv E) pf bs gs n eq st off hn1 hn2 hb hg ho hl.1 hl.2
    have v2 := C11_linear_verifier E pf bs gs n eq (aft E st) off hn1 hn2 hb hg ho hl.1 hl.2
    rw [d2, d3] at v1
    by_cases hz : 0 ∈ (deriveLin E pf n (aft E st)).xs ∨ (deriveLin E pf n (aft E st)).x = 0
    · exact Or.inl ⟨v1.1 hz, v2.1 hz⟩
    · obtain ⟨b, h1, h2⟩ := v1.2 hz
      obtain ⟨b', h3, h4⟩ := v2.2 hz
      have he : LinEq (hashEnv E) pf bs gs eq (off.getD []) (deriveLin (hashEnv E) pf n st) ↔
          LinEq E pf bs gs eq (off.getD []) (deriveLin E pf n (aft E st)) := by
        unfold LinEq
        rw [d1, d2, d3]
        exact Iff.rfl
      have hbb : b = b' := Bool.eq_iff_iff.2 (h2.trans (he.trans h4.symm))
      refine Or.inr ⟨b, _, h1, ?_⟩
      rw [h3, hbb, d4]

/-- The same for `verifyQuadratic`. -/
theorem hash_verifyQuadratic (E : Env F G) (hE : ∀ st l n, (E.challenge st l n).1.length = n) (pf : QuadPf F G)
    (gs hs : List G) (n : Nat) (eq : F) (st : (hashEnv E).St) (uoff voff : Option (List F)) (hn1 : 1 ≤ n) (hn2 : n ≤ 2 ^ 63)
    (hg : gs.length = n) (hh : hs.length = n) (hu : ∀ o, uoff = some o → o.length = n) (hv : ∀ o, voff = some o → o.length = n) :
    (verifyQuadratic (hashEnv E) pf gs hs n eq st uoff voff = .throw ∧
      verifyQuadratic E pf gs hs n eq (aft E st) uoff voff = .throw) ∨
    ∃ b st', verifyQuadratic (hashEnv E) pf gs hs n eq st uoff voff = .ok (b, st') ∧
      verifyQuadratic E pf gs hs n eq (aft E st) uoff voff = .ok (b, aft E st') := by
  by_cases hl : pf.Ls.length ≠ log2roundUp n ∨ pf.Rs.length ≠ log2roundUp n
  · exact Or.inl ⟨verifyQuadratic_len _ _ _ _ _ _ _ _ _ hl, verifyQuadratic_len _ _ _ _ _ _ _ _ _ hl⟩
  · push Not at hl
    obtain ⟨d1, d2, d3, d4⟩ := hash_deriveQuad E hE pf n st
    have v1 := C11_quadratic_verifier (hashEnv E) pf gs hs n eq st uoff voff hn1 hn2 hg hh hu hv hl.1 hl.2
    have v2 := C11_quadratic_verifier E pf gs hs n eq (aft E st) uoff voff hn1 hn2 hg hh hu hv hl.1 hl.2
    rw [d2] at v1
    by_cases hz : 0 ∈ (deriveQuad E pf n (aft E st)).xs
    · exact Or.inl ⟨v1.1 hz, v2.1 hz⟩
    · obtain ⟨b, h1, h2⟩ := v1.2 hz
      obtain ⟨b', h3, h4⟩ := v2.2 hz
      have he : QuadEq (hashEnv E) pf gs hs eq (uoff.getD []) (voff.getD []) (deriveQuad (hashEnv E) pf n st) ↔
          QuadEq E pf gs hs eq (uoff.getD []) (voff.getD []) (deriveQuad E pf n (aft E st)) := by
        unfold QuadEq
        rw [d1, d2, d3]
        exact Iff.rfl
      have hbb : b = b' := Bool.eq_iff_iff.2 (h2.trans (he.trans h4.symm))
      refine Or.inr ⟨b, _, h1, ?_⟩
      rw [h3, hbb, d4]

omit [AddCommGroup G] [Module F G] [DecidableEq F] [DecidableEq G] in
theorem aft_processLin (E : Env F G) (tag : Bytes) (c : LinConstraint F) :
    aft E ((hashEnv E).processLin ((hashEnv E).newCtx tag) lblConstraint c) = E.processLin (E.newCtx tag) lblConstraint c := by
  have h0 : aft E ((hashEnv E).newCtx tag) = E.newCtx tag := rfl
  have hf : ∀ (l : List (ℕ × F)) (st : (hashEnv E).St),
      aft E (l.foldl (fun st x => (hashEnv E).commit st (bytesFromInt (throughInt x.1)) ((hashEnv E).scalarBytes x.2)) st) =
        l.foldl (fun st x => E.commit st (bytesFromInt (throughInt x.1)) (E.scalarBytes x.2)) (aft E st) := by
    intro l
    induction l with
    | nil => intro st; rfl
    | cons x l ih =>
      intro st
      rw [List.foldl_cons, List.foldl_cons, ih, after_commit]
      rfl
  simp only [Env.processLin, Env.processScalar]
  rw [after_commit, hf, after_commit, h0]
  rfl

omit [AddCommGroup G] [Module F G] [DecidableEq F] [DecidableEq G] in
theorem aft_processQuad (E : Env F G) (tag : Bytes) (c : QuadConstraint F) :
    aft E ((hashEnv E).processQuad ((hashEnv E).newCtx tag) lblConstraint c) = E.processQuad (E.newCtx tag) lblConstraint c := by
  have h0 : aft E ((hashEnv E).newCtx tag) = E.newCtx tag := rfl
  simp only [Env.processQuad, Env.processScalar]
  rw [after_commit, after_commit, after_commit, h0]
  rfl

/-- The verdict, without the transcript. -/
def verdict {α : Type} (r : Res (Bool × α)) : Res Bool := do
  let (b, _) ← r
  .ok b

/-- `verifyLinear(cnstr, pf)` gives the same result. -/
theorem hash_verifyLinearTag (E : Env F G) (hE : ∀ st l n, (E.challenge st l n).1.length = n) (c : LinConstraint F) (pf : LinPf F G) :
    verifyLinearTag (hashEnv E) c pf = verifyLinearTag E c pf := by
  by_cases hc : 1 ≤ c.terms.length ∧ c.terms.length ≤ 2 ^ 20
  · unfold verifyLinearTag
    rw [mkFlatLin_verifier _ _ _ hc.1 hc.2, mkFlatLin_verifier _ _ _ hc.1 hc.2]
    simp only [Res.ok_bind]
    have h := hash_verifyLinear E hE pf (c.terms.map (·.2)) (c.terms.map fun e => E.getG pf.tag e.1) c.terms.length c.equalsTo
      ((hashEnv E).processLin ((hashEnv E).newCtx pf.tag) lblConstraint c) none hc.1 (hc.2.trans (by norm_num)) (by simp) (by simp)
      (by simp)
    rw [aft_processLin] at h
    simp only [List.length_map]
    rcases h with ⟨h1, h2⟩ | ⟨b, st', h1, h2⟩
    · exact (congrArg verdict h1).trans (congrArg verdict h2).symm
    · exact (congrArg verdict h1).trans ((rfl : verdict (Res.ok (b, st')) = verdict (Res.ok (b, aft E st'))).trans
        (congrArg verdict h2).symm)
  · have ht : ∀ E : Env F G, mkFlatLin E pf.tag c [] = .throw := by
      intro E
      unfold mkFlatLin
      simp only [List.length_nil]
      first
        | (rw [if_pos (by omega)])
        | (split <;> [rfl; (rw [if_pos (by omega)])])
    unfold verifyLinearTag
    rw [ht, ht]
    rfl

/-- `verifyQuadratic(cnstr, pf)` gives the same result. -/
theorem hash_verifyQuadraticTag (E : Env F G) (hE : ∀ st l n, (E.challenge st l n).1.length = n) (c : QuadConstraint F)
    (pf : QuadPf F G) : verifyQuadraticTag (hashEnv E) c pf = verifyQuadraticTag E c pf := by
  by_cases hc : 1 ≤ c.indexes.length ∧ c.indexes.length ≤ 2 ^ 20
  · unfold verifyQuadraticTag
    rw [mkFlatQuad_verifier _ _ _ hc.1 hc.2, mkFlatQuad_verifier _ _ _ hc.1 hc.2]
    simp only [Res.ok_bind]
    have h := hash_verifyQuadratic E hE pf (c.indexes.map (E.getG pf.tag)) (c.indexes.map (E.getH pf.tag)) c.indexes.length c.equalsTo
      ((hashEnv E).processQuad ((hashEnv E).newCtx pf.tag) lblConstraint c) none none hc.1 (hc.2.trans (by norm_num)) (by simp)
      (by simp) (by simp) (by simp)
    rw [aft_processQuad] at h
    simp only [List.length_map]
    rcases h with ⟨h1, h2⟩ | ⟨b, st', h1, h2⟩
    · exact (congrArg verdict h1).trans (congrArg verdict h2).symm
    · exact (congrArg verdict h1).trans ((rfl : verdict (Res.ok (b, st')) = verdict (Res.ok (b, aft E st'))).trans
        (congrArg verdict h2).symm)
  · have ht : ∀ E : Env F G, mkFlatQuad E pf.tag c [] [] = .throw := by
      intro E
      unfold mkFlatQuad
      simp only [List.length_nil]
      first
        | (rw [if_pos (by omega)])
        | (split <;> [rfl; (rw [if_pos (by omega)])])
    unfold verifyQuadraticTag
    rw [ht, ht]
    rfl

end

/-! ### The library -/

section
variable {G : Type}

theorem at_history (c : Curve G) (tag : Bytes) (ops : List TOp) : At tag ops (stateAfter (libEnv c) (historyOf tag ops)) := by
  induction ops using List.reverseRecOn with
  | nil => exact at_init tag
  | append_singleton ops o ih =>
    have h : historyOf tag (ops ++ [o]) = historyOf tag ops ++ [match o with
        | .commit l m => .absorbed l m
        | .challenge l n => .drawn l n] := by
      unfold historyOf
      rw [List.map_append]
      rfl
    rw [h, after_snoc]
    cases o with
    | commit l m => exact at_commit ih l m
    | challenge l n => exact (at_challenge ih l n).2

variable [AddCommGroup G] [Module (ZMod Regev.P) G] [DecidableEq G]

/-- **C107.** There is a function such that the bytes which `merlin_transcript_challenge_bytes` returns are its values on what happened
to the transcript before, and such that the verifiers of the library return on every constraint and every proof what they return with
the transcripts of C105 and C106 for this function.  Its values are the output of the sponge on what was absorbed before. -/
theorem C107_library (c : Curve G) : ∃ H : Query → Fin 64 → Fin 256,
    (∀ tag ops outs s l n, n ≤ 64 → (do let s ← transcriptInit keccakf tag; runOps keccakf s ops) = .ok (outs, s) →
      ∃ s', challengeBytes keccakf s l n = .ok (firstBytes n (H (historyOf tag ops, l, n)), s')) ∧
    (∀ tag ops l n, n ≤ 64 → firstBytes n (H (historyOf tag ops, l, n)) =
      outBytes keccakf (st0 keccakf) (absorbedBefore tag ops l n) n) ∧
    (∀ (cn : LinConstraint (ZMod Regev.P)) (pf : LinPf (ZMod Regev.P) G),
      verifyLinearTag (libEnv c) cn pf = verifyLinearTag (oracleEnv (libEnv c) firstBytes H) cn pf) ∧
    (∀ (cn : QuadConstraint (ZMod Regev.P)) (pf : QuadPf (ZMod Regev.P) G),
      verifyQuadraticTag (libEnv c) cn pf = verifyQuadraticTag (oracleEnv (libEnv c) firstBytes H) cn pf) := by
  have hE : ∀ st l n, ((libEnv c).challenge st l n).1.length = n := C82_length c
  have hv : ∀ tag ops l n, n ≤ 64 → firstBytes n (hashOf (libEnv c) (historyOf tag ops, l, n)) =
      (libChallenge (stateAfter (libEnv c) (historyOf tag ops)) l n).1 := by
    intro tag ops l n hn
    exact firstBytes_asBuf _ n hn (hE _ _ _)
  refine ⟨hashOf (libEnv c), ?_, ?_, fun cn pf => (hash_verifyLinearTag _ hE cn pf).symm,
    fun cn pf => (hash_verifyQuadraticTag _ hE cn pf).symm⟩
  · intro tag ops outs s l n hn h
    obtain ⟨outs', h'⟩ := at_history c tag ops
    rw [h] at h'
    have e : s = LibState.s (stateAfter (libEnv c) (historyOf tag ops)) := congrArg Prod.snd (Res.ok.inj h')
    rw [e, hv tag ops l n hn]
    exact ⟨_, libChallenge_spec _ l n⟩
  · intro tag ops l n hn
    rw [hv tag ops l n hn]
    exact (at_challenge (at_history c tag ops) l n).1

theorem le4_inj {n n' : ℕ} (hn : n < 2 ^ 32) (hn' : n' < 2 ^ 32) (h : le4 n = le4 n') : n = n' := by
  simp only [le4, bytesFromIntLoop, List.cons.injEq, and_true] at h
  have hb : ∀ a b : ℕ, UInt8.ofNat (a % 256) = UInt8.ofNat (b % 256) → a % 256 = b % 256 := by
    intro a b h
    have := congrArg UInt8.toNat h
    simpa using this
  obtain ⟨h1, h2, h3, h4⟩ := h
  have := hb _ _ h1
  have := hb _ _ h2
  have := hb _ _ h3
  have := hb _ _ h4
  omega

/-- **C107, places.** Where bytes are requested after different histories, under different labels or in different numbers, what the
sponge has absorbed is different: the function of C107 is given by the sponge on different inputs. -/
theorem C107_places (tag tag' : Bytes) (ops ops' : List TOp) (l l' : Bytes) (n n' : ℕ) (hn : n < 2 ^ 32) (hn' : n' < 2 ^ 32)
    (h : absorbedBefore tag ops l n = absorbedBefore tag' ops' l' n') : (historyOf tag ops, l, n) = (historyOf tag' ops', l', n') := by
  have ht : ∀ tag ops l n, absorbedBefore tag ops l n =
      traceOf (transcriptOps tag ops ++ [⟨6, (l ++ le4 n).map .xor⟩, ⟨7, []⟩]) := by
    intro tag ops l n
    unfold traceOf
    rw [List.foldl_append]
    rfl
  rw [ht, ht] at h
  have h1 := List.append_inj' (traceOf_inj h) rfl
  obtain ⟨h2, h3⟩ := C51_injective tag tag' ops ops' (congrArg traceOf h1.1)
  simp only [List.cons.injEq, SOp.mk.injEq, true_and, and_true] at h1
  obtain ⟨h4, h5⟩ := List.append_inj' (map_xor_inj h1.2) (by rw [le4_length, le4_length])
  rw [h2, h3, h4, le4_inj hn hn' h5]

/-- The counts of C105 for the library. -/
theorem lib_counts (c : Curve G) (hκ : ∀ g, {b : Fin 32 → Fin 256 | c.fromUniform (bufBytes b) = g}.ncard ≤ 64) :
    (∀ x, {o | (libEnv c).scalarReduce (firstBytes 64 o) = x}.ncard ≤ 2 ^ 260) ∧
    (∀ g, {o | (libEnv c).fromUniform (firstBytes 32 o) = g}.ncard ≤ 2 ^ 262) ∧
    ∀ t m M k : ℕ, m ≤ 2 ^ 262 → t * M < k * 2 ^ 250 → t * m * M < k * Nat.card (Fin 64 → Fin 256) := by
  refine ⟨?_, ?_, ?_⟩
  · intro x
    have : {o | (libEnv c).scalarReduce (firstBytes 64 o) = x} = {b : Fin 64 → Fin 256 | scalarOf b = x} := by
      ext o
      have : firstBytes 64 o = bufBytes o := by
        rw [firstBytes, List.take_of_length_le (by simp [bufBytes])]
      simp only [Set.mem_setOf_eq, this, libEnv, scalarOf]
    rw [this]
    exact C104_bytes x
  · intro g
    have hν := firstBytes_gen c.fromUniform 64 hκ g
    have h62 : (64 : ℕ) * 2 ^ 256 = 2 ^ 262 := by rw [show (64 : ℕ) = 2 ^ 6 by norm_num, ← pow_add]
    rw [h62] at hν
    exact hν
  · intro t m M k hm h
    have hN : Nat.card (Fin 64 → Fin 256) = 2 ^ 250 * 2 ^ 262 := by
      rw [Nat.card_fun, Nat.card_fin, Nat.card_fin, show (256 : ℕ) = 2 ^ 8 by norm_num, ← pow_mul, ← pow_add]
    rw [hN]
    calc t * m * M = t * M * m := by ring
      _ ≤ t * M * 2 ^ 262 := Nat.mul_le_mul_left _ hm
      _ < k * 2 ^ 250 * 2 ^ 262 := Nat.mul_lt_mul_of_pos_right h (Nat.two_pow_pos _)
      _ = _ := by rw [Nat.mul_assoc]

theorem lib_scalarBytes (c : Curve G) : Function.Injective (libEnv c).scalarBytes :=
  fun s t h => ((C82_scalars c s t).2.1).1 h

/-- **C107, linear proofs.** The library, with the function of C107 replaced by a random one, points with injective encoding, and at most
64 of the `2^256` strings of 32 bytes for each generator: if a program that evaluates the function at most `T` times outputs a
constraint (indexes below `2^32`) and a proof that `verifyLinear` accepts, for more than a fraction `(T+22)/2^250` of all functions, then among its
accepted outputs there are two trees for one tag, one constraint and one commitment.  They give scalars `a` for the variables of this
constraint: if the coefficient of `F₁` in a relation between the generators is zero, then the commitment is to `a`, and `a` satisfies
the constraint. -/
theorem C107_linear [Finite G] (c : Curve G) (hpb : Function.Injective c.pointBytes)
    (hκ : ∀ g, {b : Fin 32 → Fin 256 | c.fromUniform (bufBytes b) = g}.ncard ≤ 64)
    (A : Program Query (Fin 64 → Fin 256) (LinConstraint (ZMod Regev.P) × LinPf (ZMod Regev.P) G)) (T : ℕ)
    (hT : ∀ H, (A.asked H).length ≤ T) :
    ∃ D₀ : Finset Query, ∀ D, D₀ ⊆ D → ∀ H₀ : Query → Fin 64 → Fin 256,
      (T + 22) * Nat.card (D → Fin 64 → Fin 256) <
        {H : D → Fin 64 → Fin 256 | ∃ cn pf, A.run (onSet D H₀ H) = (cn, pf) ∧ (∀ t ∈ cn.terms, t.1 < 2 ^ 32) ∧
          verifyLinearTag (oracleEnv (libEnv c) firstBytes (onSet D H₀ H)) cn pf = .ok true}.ncard * 2 ^ 250 →
      ∃ (tag : Bytes) (cn : LinConstraint (ZMod Regev.P)),
        let gs := cn.terms.map fun t => (libEnv c).getG tag t.1
        let bs := cn.terms.map (·.2)
        let Out := fun H pf => A.run H = (cn, pf) ∧ pf.tag = tag
        ∃ (C F₁ F₂ : G) (t₁ t₂ : LinTree (ZMod Regev.P) G), F₁ ≠ F₂ ∧
          t₁.OutputBy (libEnv c) firstBytes (linStart (libEnv c) tag cn) gs bs cn.equalsTo none Out C F₁ [] [] [] ∧
          t₂.OutputBy (libEnv c) firstBytes (linStart (libEnv c) tag cn) gs bs cn.equalsTo none Out C F₂ [] [] [] ∧
          let a := t₁.extract.2.take cn.terms.length
          let a' := t₂.extract.2.take cn.terms.length
          a.length = cn.terms.length ∧ a'.length = cn.terms.length ∧
          (t₁.extract.1 - t₂.extract.1) • c.base + mexp (List.zipWith (· - ·) a a') gs + (dot a bs - cn.equalsTo) • F₁ +
            (cn.equalsTo - dot a' bs) • F₂ = 0 ∧
          (dot a bs = cn.equalsTo → C = t₁.extract.1 • c.base + mexp a gs) := by
  obtain ⟨hμ, hν, key⟩ := lib_counts c hκ
  obtain ⟨D₀, h⟩ := C106_linear (libEnv c) hpb (lib_scalarBytes c) firstBytes (2 ^ 260) (2 ^ 262) hμ hν 20 le_rfl A T hT
  refine ⟨D₀, fun D hD H₀ hc => h D hD H₀ ?_⟩
  have hs : {H : D → Fin 64 → Fin 256 | ∃ cn pf, A.run (onSet D H₀ H) = (cn, pf) ∧ (∀ t ∈ cn.terms, t.1 < 2 ^ 32) ∧
      cn.terms.length ≤ 2 ^ 20 ∧ verifyLinearTag (oracleEnv (libEnv c) firstBytes (onSet D H₀ H)) cn pf = .ok true} =
      {H : D → Fin 64 → Fin 256 | ∃ cn pf, A.run (onSet D H₀ H) = (cn, pf) ∧ (∀ t ∈ cn.terms, t.1 < 2 ^ 32) ∧
        verifyLinearTag (oracleEnv (libEnv c) firstBytes (onSet D H₀ H)) cn pf = .ok true} := by
    ext H
    constructor
    · rintro ⟨cn, pf, h1, h2, -, h4⟩
      exact ⟨cn, pf, h1, h2, h4⟩
    · rintro ⟨cn, pf, h1, h2, h4⟩
      refine ⟨cn, pf, h1, h2, ?_, h4⟩
      by_contra hl
      have ht : mkFlatLin (oracleEnv (libEnv c) firstBytes (onSet D H₀ H)) pf.tag cn [] = .throw := by
        unfold mkFlatLin
        simp only [List.length_nil]
        first
          | (rw [if_pos (by omega)])
          | (split <;> [rfl; (rw [if_pos (by omega)])])
      unfold verifyLinearTag at h4
      rw [ht] at h4
      exact absurd h4 (by intro h; cases h)
  rw [hs]
  exact key _ _ _ _ (max_le le_rfl (by
    rw [show (2 : ℕ) ^ 262 = 4 * 2 ^ 260 by rw [show (4 : ℕ) = 2 ^ 2 by norm_num, ← pow_add]]
    exact Nat.mul_le_mul_right _ (by norm_num))) hc

/-- **C107, quadratic proofs.** The same for quadratic constraints about a power of two of pairs of variables. -/
theorem C107_quadratic [Finite G] (c : Curve G) (hpb : Function.Injective c.pointBytes)
    (hκ : ∀ g, {b : Fin 32 → Fin 256 | c.fromUniform (bufBytes b) = g}.ncard ≤ 64)
    (A : Program Query (Fin 64 → Fin 256) (QuadConstraint (ZMod Regev.P) × QuadPf (ZMod Regev.P) G)) (T : ℕ)
    (hT : ∀ H, (A.asked H).length ≤ T) :
    ∃ D₀ : Finset Query, ∀ D, D₀ ⊆ D → ∀ H₀ : Query → Fin 64 → Fin 256,
      (T + 22) * Nat.card (D → Fin 64 → Fin 256) <
        {H : D → Fin 64 → Fin 256 | ∃ cn pf, A.run (onSet D H₀ H) = (cn, pf) ∧ (∀ i ∈ cn.indexes, i < 2 ^ 64) ∧
          (∃ k, cn.indexes.length = 2 ^ k) ∧
          verifyQuadraticTag (oracleEnv (libEnv c) firstBytes (onSet D H₀ H)) cn pf = .ok true}.ncard * 2 ^ 250 →
      ∃ (tag : Bytes) (cn : QuadConstraint (ZMod Regev.P)) (k : ℕ), cn.indexes.length = 2 ^ k ∧
        let gs := cn.indexes.map ((libEnv c).getG tag)
        let hs := cn.indexes.map ((libEnv c).getH tag)
        let Out := fun H pf => A.run H = (cn, pf) ∧ pf.tag = tag
        ∃ (C F₁ F₂ : G) (t₁ t₂ : QuadTree (ZMod Regev.P) G), F₁ ≠ F₂ ∧
          t₁.OutputBy (libEnv c) firstBytes (quadStart (libEnv c) tag cn) gs hs cn.equalsTo none none Out C F₁ [] [] [] ∧
          t₂.OutputBy (libEnv c) firstBytes (quadStart (libEnv c) tag cn) gs hs cn.equalsTo none none Out C F₂ [] [] [] ∧
          let a := (List.range (2 ^ k)).map (t₁.extract k).2.2.1
          let b := (List.range (2 ^ k)).map (t₁.extract k).2.2.2
          let α := (List.range (2 ^ k)).map ((t₁.extract k).2.2.1 - (t₂.extract k).2.2.1)
          let β := (List.range (2 ^ k)).map ((t₁.extract k).2.2.2 - (t₂.extract k).2.2.2)
          (∀ ρ ∈ t₁.relations k, ρ.1 • c.base + ρ.2.1 • F₁ + mexp ((List.range (2 ^ k)).map ρ.2.2.1) gs
            + mexp ((List.range (2 ^ k)).map ρ.2.2.2) hs = 0) ∧
          ((t₁.extract k).1 - (t₂.extract k).1) • c.base + mexp α gs + mexp β hs + ((t₁.extract k).2.1 - cn.equalsTo) • F₁ +
            (cn.equalsTo - (t₂.extract k).2.1) • F₂ = 0 ∧
          ((∀ ρ ∈ t₁.relations k, ρ.Trivial (2 ^ k)) → (t₁.extract k).2.1 - cn.equalsTo = 0 →
            C = (t₁.extract k).1 • c.base + mexp a gs + mexp b hs ∧ dot a b = cn.equalsTo) := by
  obtain ⟨hμ, hν, key⟩ := lib_counts c hκ
  obtain ⟨D₀, h⟩ := C106_quadratic (libEnv c) hpb (lib_scalarBytes c) firstBytes (2 ^ 260) (2 ^ 262) hμ hν 20 le_rfl A T hT
  refine ⟨D₀, fun D hD H₀ hc => h D hD H₀ ?_⟩
  have hs : {H : D → Fin 64 → Fin 256 | ∃ cn pf, A.run (onSet D H₀ H) = (cn, pf) ∧ (∀ i ∈ cn.indexes, i < 2 ^ 64) ∧
      (∃ k ≤ 20, cn.indexes.length = 2 ^ k) ∧
      verifyQuadraticTag (oracleEnv (libEnv c) firstBytes (onSet D H₀ H)) cn pf = .ok true} =
      {H : D → Fin 64 → Fin 256 | ∃ cn pf, A.run (onSet D H₀ H) = (cn, pf) ∧ (∀ i ∈ cn.indexes, i < 2 ^ 64) ∧
        (∃ k, cn.indexes.length = 2 ^ k) ∧
        verifyQuadraticTag (oracleEnv (libEnv c) firstBytes (onSet D H₀ H)) cn pf = .ok true} := by
    ext H
    constructor
    · rintro ⟨cn, pf, h1, h2, ⟨k, -, hk⟩, h4⟩
      exact ⟨cn, pf, h1, h2, ⟨k, hk⟩, h4⟩
    · rintro ⟨cn, pf, h1, h2, ⟨k, hk⟩, h4⟩
      refine ⟨cn, pf, h1, h2, ⟨k, ?_, hk⟩, h4⟩
      by_contra hl
      have hbig : 2 ^ 20 < cn.indexes.length := by
        rw [hk]; exact Nat.pow_lt_pow_right (by norm_num) (by omega)
      have ht : mkFlatQuad (oracleEnv (libEnv c) firstBytes (onSet D H₀ H)) pf.tag cn [] [] = .throw := by
        unfold mkFlatQuad
        simp only [List.length_nil]
        first
          | (rw [if_pos (by omega)])
          | (split <;> [rfl; (rw [if_pos (by omega)])])
      unfold verifyQuadraticTag at h4
      rw [ht] at h4
      exact absurd h4 (by intro h; cases h)
  rw [hs]
  exact key _ _ _ _ (max_le le_rfl (by
    rw [show (2 : ℕ) ^ 262 = 4 * 2 ^ 260 by rw [show (4 : ℕ) = 2 ^ 2 by norm_num, ← pow_add]])) hc

/-- The runs of C107 exist, for every label and all operations: here one that draws bytes after a message. -/
example (c : Curve G) : ∃ (H : Query → Fin 64 → Fin 256) (s s' : Strobe),
    (do let s ← transcriptInit keccakf [84]; runOps keccakf s [.commit [67] [1, 2, 3]]) = .ok ([], s) ∧
    challengeBytes keccakf s [70] 32 = .ok (firstBytes 32 (H ([.started [84], .absorbed [67] [1, 2, 3]], [70], 32)), s') := by
  obtain ⟨H, h, -⟩ := C107_library c
  obtain ⟨s0, s, h1, h2, -, -⟩ := run_rel [84] [.commit [67] [1, 2, 3]]
  have hr : (do let s ← transcriptInit keccakf [84]; runOps keccakf s [.commit [67] [1, 2, 3]]) = .ok ([], s) := by
    rw [h1, Res.ok_bind]; exact h2
  obtain ⟨s', h3⟩ := h [84] [.commit [67] [1, 2, 3]] [] s [70] 32 (by norm_num) hr
  exact ⟨H, s, s', hr, h3⟩

/-- Requests for 32 and for 64 bytes, and requests after different messages, are different inputs of the sponge. -/
example : absorbedBefore [84] [.commit [67] [1]] [120] 32 ≠ absorbedBefore [84] [.commit [67] [1]] [120] 64 ∧
    absorbedBefore [84] [.commit [67] [1]] [120] 64 ≠ absorbedBefore [84] [.commit [67] [2]] [120] 64 :=
  ⟨fun h => absurd (C107_places _ _ _ _ _ _ _ _ (by norm_num) (by norm_num) h) (by simp),
   fun h => absurd (C107_places _ _ _ _ _ _ _ _ (by norm_num) (by norm_num) h) (by simp [historyOf])⟩

end

/-! ### The hypotheses can be met -/

/-- The additive group modulo the order as the group of points. -/
def fsCurve : Curve (ZMod Regev.P) where
  pointBytes s := Sc.zzBytes 32 s.val
  fromUniform b := (Sc.leVal b : ZMod Regev.P)
  hashToCurve _ := 2
  base := 1

theorem fsCurve_points : Function.Injective fsCurve.pointBytes := fun s t h => ((C82_scalars fsCurve s t).2.1).1 h

theorem fsCurve_gen (c : ZMod Regev.P) : {b : Fin 32 → Fin 256 | fsCurve.fromUniform (bufBytes b) = c}.ncard ≤ 64 := by
  have hlt : ∀ b : Fin 32 → Fin 256, Sc.leVal (bufBytes b) / Regev.P < 256 ^ 32 / Regev.P + 1 := by
    intro b
    have h := Sc.leVal_lt (bufBytes b)
    rw [show (bufBytes b).length = 32 by simp [bufBytes]] at h
    exact Nat.lt_succ_of_le (Nat.div_le_div_right h.le)
  have hM : 256 ^ 32 / Regev.P + 1 ≤ 64 := by decide +kernel
  obtain ⟨M, h2⟩ : ∃ M, M = 256 ^ 32 / Regev.P + 1 := ⟨_, rfl⟩
  rw [← h2] at hlt hM
  have := Set.ncard_le_ncard_of_injOn (s := {b : Fin 32 → Fin 256 | fsCurve.fromUniform (bufBytes b) = c})
    (t := (Set.univ : Set (Fin M)))
    (fun b => ⟨_, hlt b⟩) (fun b _ => Set.mem_univ _) (by
      intro a ha b hb h
      have ha : ((Sc.leVal (bufBytes a) : ℕ) : ZMod Regev.P) = c := ha
      have hb : ((Sc.leVal (bufBytes b) : ℕ) : ZMod Regev.P) = c := hb
      have h1 := ha.trans hb.symm
      have h3 : Sc.leVal (bufBytes a) / Regev.P = Sc.leVal (bufBytes b) / Regev.P := by simpa using h
      apply bufBytes_inj
      rw [ZMod.natCast_eq_natCast_iff'] at h1
      rw [← Nat.div_add_mod (Sc.leVal (bufBytes a)) Regev.P, h1, h3, Nat.div_add_mod]) (Set.toFinite _)
  rw [Set.ncard_univ, Nat.card_fin] at this
  exact this.trans hM

/-- The first byte turned around. -/
def turn (o : Fin 64 → Fin 256) : Fin 64 → Fin 256 := Function.update o 0 (o 0).rev

theorem turn_turn (o : Fin 64 → Fin 256) : turn (turn o) = o := by
  simp [turn]

theorem turn_scalar (o : Fin 64 → Fin 256) (h : scalarOf o = 0) : scalarOf (turn o) ≠ 0 := by
  intro h'
  have hv : ∀ o : Fin 64 → Fin 256, Sc.leVal (bufBytes o) =
      (o 0).val + 256 * Sc.leVal (bufBytes fun i : Fin 63 => o i.succ) := by
    intro o
    unfold bufBytes
    rw [List.ofFn_succ, Sc.leVal]
    rfl
  have hr : (fun i : Fin 63 => turn o i.succ) = fun i : Fin 63 => o i.succ := by
    funext i
    simp [turn, Fin.succ_ne_zero]
  have h0 : (turn o 0).val = 255 - (o 0).val := by
    simp [turn, Fin.rev]
  unfold scalarOf at h h'
  rw [ZMod.natCast_eq_zero_iff] at h h'
  rw [hv] at h h'
  rw [hr, h0] at h'
  obtain ⟨A, hA⟩ : ∃ A, A = 256 * Sc.leVal (bufBytes fun i : Fin 63 => o i.succ) := ⟨_, rfl⟩
  rw [← hA] at h h'
  have hlt := (o 0).isLt
  have hP : 256 < Regev.P := by decide +kernel
  obtain ⟨b, hb⟩ : ∃ b, b = (o 0).val := ⟨_, rfl⟩
  rw [← hb] at h h' hlt
  rcases Nat.lt_or_ge b (255 - b) with hc | hc
  · have := (Nat.dvd_sub h' h)
    rw [show 255 - b + A - (b + A) = 255 - b - b by omega] at this
    have := Nat.le_of_dvd (by omega) this
    omega
  · have := (Nat.dvd_sub h h')
    rw [show b + A - (255 - b + A) = b - (255 - b) by omega] at this
    have := Nat.le_of_dvd (by omega) this
    omega

/-- For at least half of all functions the value at `q` is a nonzero scalar. -/
theorem half_nonzero (D : Finset Query) (q : Query) (hq : q ∈ D) (H₀ : Query → Fin 64 → Fin 256) :
    Nat.card (D → Fin 64 → Fin 256) ≤ 2 * {H : D → Fin 64 → Fin 256 | scalarOf (onSet D H₀ H q) ≠ 0}.ncard := by
  classical
  obtain ⟨S, hS⟩ : ∃ S : Set (D → Fin 64 → Fin 256), S = {H | scalarOf (onSet D H₀ H q) ≠ 0} := ⟨_, rfl⟩
  have hmem : ∀ H, H ∈ S ↔ scalarOf (H ⟨q, hq⟩) ≠ 0 := by
    intro H
    rw [hS, Set.mem_setOf_eq, onSet, dif_pos hq]
  rw [← hS]
  have h1 := Set.ncard_add_ncard_compl S
  have h2 : Sᶜ.ncard ≤ S.ncard := by
    refine Set.ncard_le_ncard_of_injOn (fun H => Function.update H ⟨q, hq⟩ (turn (H ⟨q, hq⟩))) ?_ ?_ (Set.toFinite _)
    · intro H hH
      have h0 : scalarOf (H ⟨q, hq⟩) = 0 := by
        by_contra hc
        exact hH ((hmem H).2 hc)
      rw [hmem, Function.update_self]
      exact turn_scalar _ h0
    · intro H _ H' _ he
      funext d
      by_cases hd : d = ⟨q, hq⟩
      · have := congrFun he ⟨q, hq⟩
        simp only [Function.update_self] at this
        rw [hd, ← turn_turn (H ⟨q, hq⟩), this, turn_turn]
      · have := congrFun he d
        simpa only [Function.update_of_ne hd] using this
  omega

/-- Where the program asks. -/
noncomputable def fsPlace : Query :=
  (linStart (libEnv fsCurve) [] ⟨[(0, 3)], 3⟩ ++ [.absorbed [67] (fsCurve.pointBytes 7), .drawn [70] 32,
    .absorbed [83] (fsCurve.pointBytes 0)], [120], 64)

/-- A prover for `3·x₀ = 3` that computes the challenge with the function. -/
noncomputable def fsLibProgram :
    Program Query (Fin 64 → Fin 256) (LinConstraint (ZMod Regev.P) × LinPf (ZMod Regev.P) (ZMod Regev.P)) :=
  .ask fsPlace fun o => .done (⟨[(0, 3)], 3⟩, ⟨[], 7, [], [], 0, scalarOf o, 5 * scalarOf o⟩)

theorem fsLibProgram_accepted (H : Query → Fin 64 → Fin 256) (hH : scalarOf (H fsPlace) ≠ 0) :
    (fsLibProgram.run H).1 = ⟨[(0, 3)], 3⟩ ∧
    verifyLinearTag (oracleEnv (libEnv fsCurve) firstBytes H) (fsLibProgram.run H).1 (fsLibProgram.run H).2 = .ok true := by
  obtain ⟨o, ho⟩ : ∃ o, o = H fsPlace := ⟨_, rfl⟩
  obtain ⟨st, hst⟩ : ∃ st, st = linStart (libEnv fsCurve) [] ⟨[(0, 3)], 3⟩ := ⟨_, rfl⟩
  obtain ⟨pf, hpf⟩ : ∃ pf : LinPf (ZMod Regev.P) (ZMod Regev.P), pf = ⟨[], 7, [], [], 0, scalarOf o, 5 * scalarOf o⟩ := ⟨_, rfl⟩
  have hrun : fsLibProgram.run H = (⟨[(0, 3)], 3⟩, pf) := by
    rw [hpf, ho]; rfl
  rw [← ho] at hH
  refine ⟨by rw [hrun], ?_⟩
  rw [hrun]
  have htag : pf.tag = [] := by rw [hpf]
  have hl : log2roundUp 1 = 0 := by decide
  have hf : ∀ o, firstBytes 64 o = bufBytes o := by
    intro o
    rw [firstBytes, List.take_of_length_le (by simp [bufBytes])]
  have hd : (deriveLin (oracleEnv (libEnv fsCurve) firstBytes H) pf 1 st).xs = [] ∧
      (deriveLin (oracleEnv (libEnv fsCurve) firstBytes H) pf 1 st).x = scalarOf o := by
    rw [hpf, ho]
    refine ⟨by simp [deriveLin, foldChallenges], ?_⟩
    simp only [deriveLin, foldChallenges, oracleEnv, hf]
    have hq : (((st ++ [Entry.absorbed [67] (fsCurve.pointBytes 7)]) ++ [Entry.drawn [70] 32]) ++
        [Entry.absorbed [83] (fsCurve.pointBytes 0)], ([120] : Bytes), 64) = fsPlace := by
      rw [hst, fsPlace]; simp
    exact congrArg (fun q => scalarOf (H q)) hq
  obtain ⟨b, hb, hiff⟩ := (C11_linear_verifier (oracleEnv (libEnv fsCurve) firstBytes H) pf [3] [2] 1 3 st none (by norm_num)
    (by norm_num) rfl rfl (by simp) (by rw [hpf, hl]; rfl) (by rw [hpf, hl]; rfl)).2 (by
      rw [hd.1, hd.2]; simpa using hH)
  have hbt : b = true := hiff.2 (by
    simp only [LinEq, hd.1, hd.2, foldedSum]
    generalize (deriveLin (oracleEnv (libEnv fsCurve) firstBytes H) pf 1 st).Fg = g
    have hbase : (oracleEnv (libEnv fsCurve) firstBytes H).base = 1 := rfl
    simp [subsetProd, List.range_succ, mexp, hbase, hpf]
    ring)
  rw [verifyLinearTag, htag, mkFlatLin_verifier _ _ _ (by simp) (by simp)]
  have hs : (oracleEnv (libEnv fsCurve) firstBytes H).processLin ((oracleEnv (libEnv fsCurve) firstBytes H).newCtx []) lblConstraint
      ⟨[(0, 3)], 3⟩ = st := by
    rw [hst]; rfl
  have hg : ([((0 : ℕ), (3 : ZMod Regev.P))].map fun e => (oracleEnv (libEnv fsCurve) firstBytes H).getG [] e.1) = [2] := rfl
  simp only [Res.ok_bind, hg]
  rw [hs]
  rw [hbt] at hb
  refine Res.bind_eq_ok.2 ⟨_, hb, rfl⟩

/-- All hypotheses of `C107_linear` are met by this program. -/
example : ∃ (tag : Bytes) (cn : LinConstraint (ZMod Regev.P)) (C F₁ F₂ : ZMod Regev.P) (t₁ t₂ : LinTree (ZMod Regev.P) (ZMod Regev.P)),
    F₁ ≠ F₂ ∧
    t₁.OutputBy (libEnv fsCurve) firstBytes (linStart (libEnv fsCurve) tag cn) (cn.terms.map fun t => (libEnv fsCurve).getG tag t.1)
      (cn.terms.map (·.2)) cn.equalsTo none (fun H pf => fsLibProgram.run H = (cn, pf) ∧ pf.tag = tag) C F₁ [] [] [] ∧
    t₂.OutputBy (libEnv fsCurve) firstBytes (linStart (libEnv fsCurve) tag cn) (cn.terms.map fun t => (libEnv fsCurve).getG tag t.1)
      (cn.terms.map (·.2)) cn.equalsTo none (fun H pf => fsLibProgram.run H = (cn, pf) ∧ pf.tag = tag) C F₂ [] [] [] := by
  classical
  obtain ⟨D₀, h⟩ := C107_linear fsCurve fsCurve_points fsCurve_gen fsLibProgram 1 (fun H => le_rfl)
  obtain ⟨D, hD⟩ : ∃ D, D = insert fsPlace D₀ := ⟨_, rfl⟩
  obtain ⟨tag, c, C, F₁, F₂, t₁, t₂, e1, e2, e3, -⟩ := h D (hD ▸ Finset.subset_insert _ _) (fun _ _ => 0) (by
    have hh := half_nonzero D fsPlace (hD ▸ Finset.mem_insert_self _ _) (fun _ _ => 0)
    refine lt_of_lt_of_le ?_ (Nat.mul_le_mul_right _ (Set.ncard_le_ncard
      (s := {H : D → Fin 64 → Fin 256 |
        scalarOf (onSet D (fun _ _ => 0) H fsPlace) ≠ 0}) ?_ (Set.toFinite _)))
    · have hpos : 0 < Nat.card (D → Fin 64 → Fin 256) := Nat.card_pos
      obtain ⟨N, hN⟩ : ∃ N, N = Nat.card (D → Fin 64 → Fin 256) := ⟨_, rfl⟩
      rw [← hN] at hh hpos ⊢
      have h46 : 46 < 2 ^ 250 := by norm_num
      obtain ⟨B, hB⟩ : ∃ B : ℕ, B = 2 ^ 250 := ⟨_, rfl⟩
      rw [← hB] at h46 ⊢
      generalize Set.ncard _ = m at hh ⊢
      have : 46 * m < B * m := Nat.mul_lt_mul_of_pos_right h46 (by omega)
      rw [Nat.mul_comm m B]
      omega
    · intro H hH
      obtain ⟨h1, h2⟩ := fsLibProgram_accepted _ hH
      refine ⟨_, _, (Prod.mk.eta).symm, ?_, h2⟩
      rw [h1]; simp)
  exact ⟨tag, c, C, F₁, F₂, t₁, t₂, e1, e2, e3⟩

/-- A prover for `x₀·y₀ = 3`; the proof does not depend on the challenge. -/
def fsLibQuadProgram :
    Program Query (Fin 64 → Fin 256) (QuadConstraint (ZMod Regev.P) × QuadPf (ZMod Regev.P) (ZMod Regev.P)) :=
  .ask ([], [], 0) fun _ => .done (⟨[0], 3⟩, ⟨[], 13, [], [], 0, 0, 1, 3, 5⟩)

theorem fsLibQuadProgram_accepted (H : Query → Fin 64 → Fin 256) : (fsLibQuadProgram.run H).1 = ⟨[0], 3⟩ ∧
    verifyQuadraticTag (oracleEnv (libEnv fsCurve) firstBytes H) (fsLibQuadProgram.run H).1 (fsLibQuadProgram.run H).2 = .ok true := by
  obtain ⟨st, hst⟩ : ∃ st, st = quadStart (libEnv fsCurve) [] ⟨[0], 3⟩ := ⟨_, rfl⟩
  obtain ⟨pf, hpf⟩ : ∃ pf : QuadPf (ZMod Regev.P) (ZMod Regev.P), pf = ⟨[], 13, [], [], 0, 0, 1, 3, 5⟩ := ⟨_, rfl⟩
  have hrun : fsLibQuadProgram.run H = (⟨[0], 3⟩, pf) := by
    rw [hpf]; rfl
  refine ⟨by rw [hrun], ?_⟩
  rw [hrun]
  have htag : pf.tag = [] := by rw [hpf]
  have hl : log2roundUp 1 = 0 := by decide
  have hd : (deriveQuad (oracleEnv (libEnv fsCurve) firstBytes H) pf 1 st).xs = [] := by
    rw [hpf]
    simp [deriveQuad, foldChallenges]
  obtain ⟨b, hb, hiff⟩ := (C11_quadratic_verifier (oracleEnv (libEnv fsCurve) firstBytes H) pf [2] [2] 1 3 st none none (by norm_num)
    (by norm_num) rfl rfl (by simp) (by simp) (by rw [hpf, hl]; rfl) (by rw [hpf, hl]; rfl)).2 (by rw [hd]; simp)
  have hbt : b = true := hiff.2 (by
    simp only [QuadEq, hd, foldedSum]
    generalize (deriveQuad (oracleEnv (libEnv fsCurve) firstBytes H) pf 1 st).Fg = g
    have hbase : (oracleEnv (libEnv fsCurve) firstBytes H).base = 1 := rfl
    simp [subsetProd, List.range_succ, mexp, hbase, hpf]
    ring)
  rw [verifyQuadraticTag, htag, mkFlatQuad_verifier _ _ _ (by simp) (by simp)]
  have hs : (oracleEnv (libEnv fsCurve) firstBytes H).processQuad ((oracleEnv (libEnv fsCurve) firstBytes H).newCtx []) lblConstraint
      ⟨[0], 3⟩ = st := by
    rw [hst]; rfl
  have hg : ([0].map ((oracleEnv (libEnv fsCurve) firstBytes H).getG [])) = [2] := rfl
  have hh : ([0].map ((oracleEnv (libEnv fsCurve) firstBytes H).getH [])) = [2] := rfl
  simp only [Res.ok_bind, hg, hh]
  rw [hs]
  rw [hbt] at hb
  refine Res.bind_eq_ok.2 ⟨_, hb, rfl⟩

/-- All hypotheses of `C107_quadratic` are met by this program. -/
example : ∃ (tag : Bytes) (cn : QuadConstraint (ZMod Regev.P)) (C F₁ F₂ : ZMod Regev.P) (t₁ t₂ : QuadTree (ZMod Regev.P) (ZMod Regev.P)),
    F₁ ≠ F₂ ∧
    t₁.OutputBy (libEnv fsCurve) firstBytes (quadStart (libEnv fsCurve) tag cn) (cn.indexes.map ((libEnv fsCurve).getG tag))
      (cn.indexes.map ((libEnv fsCurve).getH tag)) cn.equalsTo none none
      (fun H pf => fsLibQuadProgram.run H = (cn, pf) ∧ pf.tag = tag) C F₁ [] [] [] ∧
    t₂.OutputBy (libEnv fsCurve) firstBytes (quadStart (libEnv fsCurve) tag cn) (cn.indexes.map ((libEnv fsCurve).getG tag))
      (cn.indexes.map ((libEnv fsCurve).getH tag)) cn.equalsTo none none
      (fun H pf => fsLibQuadProgram.run H = (cn, pf) ∧ pf.tag = tag) C F₂ [] [] [] := by
  obtain ⟨D₀, h⟩ := C107_quadratic fsCurve fsCurve_points fsCurve_gen fsLibQuadProgram 1 (fun H => le_rfl)
  obtain ⟨tag, c, k, hk, C, F₁, F₂, t₁, t₂, e1, e2, e3, -⟩ := h D₀ le_rfl (fun _ _ => 0) (by
    have hu : {H : D₀ → Fin 64 → Fin 256 | ∃ cn pf, fsLibQuadProgram.run (onSet D₀ (fun _ _ => 0) H) = (cn, pf) ∧
        (∀ i ∈ cn.indexes, i < 2 ^ 64) ∧ (∃ k, cn.indexes.length = 2 ^ k) ∧
        verifyQuadraticTag (oracleEnv (libEnv fsCurve) firstBytes (onSet D₀ (fun _ _ => 0) H)) cn pf = .ok true} = Set.univ := by
      refine Set.eq_univ_of_forall fun H => ?_
      obtain ⟨h1, h2⟩ := fsLibQuadProgram_accepted (onSet D₀ (fun _ _ => 0) H)
      refine ⟨_, _, (Prod.mk.eta).symm, ?_, ⟨0, ?_⟩, h2⟩
      · rw [h1]; simp
      · rw [h1]; simp
    rw [hu, Set.ncard_univ, Nat.mul_comm]
    exact Nat.mul_lt_mul_of_pos_left (by norm_num) Nat.card_pos)
  exact ⟨tag, c, C, F₁, F₂, t₁, t₂, e1, e2, e3⟩

end Verif.Props
