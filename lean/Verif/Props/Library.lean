/-
Property C82: the environment of the library.
-/
import Verif.Model.Library
import Verif.Spec.Library
import Verif.Props.Program
import Mathlib.Data.Int.CardIntervalMod

namespace Verif.Props
open Verif Verif.Spec Verif.Merlin Verif.Regev

variable {G : Type}

/-- **C82, faithful.** The environment runs the modelled C functions: no transcript operation fails,
and what it returns is what they return. -/
theorem C82_faithful (c : Curve G) (label l m : Bytes) (n : ℕ) (st : LibState) :
    (∃ st' : LibState, (libEnv c).init label = st' ∧ transcriptInit keccakf label = .ok st'.s) ∧
    (∃ st' : LibState, (libEnv c).commit st l m = st' ∧ commitBytes keccakf st.s l m = .ok st'.s) ∧
    ∃ (o : Bytes) (st' : LibState), (libEnv c).challenge st l n = (o, st') ∧
      challengeBytes keccakf st.s l n = .ok (o, st'.s) :=
  ⟨⟨_, rfl, libInit_spec label⟩, ⟨_, rfl, libCommit_spec st l m⟩, _, _, rfl, libChallenge_spec st l n⟩

/-- The state `st` is that of a transcript with label `tag` after the operations `ops`. -/
def At (tag : Bytes) (ops : List TOp) (st : LibState) : Prop :=
  ∃ outs, (do let s ← transcriptInit keccakf tag; runOps keccakf s ops) = .ok (outs, st.s)

theorem at_rel (tag : Bytes) (ops : List TOp) (st : LibState) (h : At tag ops st) :
    Rel keccakf (st0 keccakf) st.s (traceOf (transcriptOps tag ops)) ∧ TInv (traceOf (transcriptOps tag ops)) := by
  obtain ⟨outs, h⟩ := h
  obtain ⟨s0, s, h1, h2, h3, h4⟩ := run_rel tag ops
  rw [h1, Res.ok_bind, h2] at h
  have e : s = st.s := congrArg Prod.snd (Res.ok.inj h)
  rw [← e]
  exact ⟨h3, h4⟩

theorem at_init (tag : Bytes) : At tag [] (libInit tag) :=
  ⟨[], Res.bind_eq_ok.2 ⟨_, libInit_spec tag, by rw [runOps]⟩⟩

theorem at_commit {tag : Bytes} {ops : List TOp} {st : LibState} (h : At tag ops st)
    (l m : Bytes) : At tag (ops ++ [.commit l m]) (libCommit st l m) := by
  obtain ⟨outs, h⟩ := h
  obtain ⟨s0, h1, h2⟩ := Res.bind_eq_ok.1 h
  refine ⟨_, Res.bind_eq_ok.2 ⟨s0, h1, runOps_append _ _ _ _ _ _ _ [] h2 ?_⟩⟩
  rw [runOps, libCommit_spec st l m, Res.ok_bind, runOps]

theorem at_challenge {tag : Bytes} {ops : List TOp} {st : LibState} (h : At tag ops st)
    (l : Bytes) (n : ℕ) : (libChallenge st l n).1 = answer tag ops l n ∧
      At tag (ops ++ [.challenge l n]) (libChallenge st l n).2 := by
  have hf := libChallenge_spec st l n
  constructor
  · obtain ⟨r, ri⟩ := at_rel tag ops st h
    obtain ⟨o, s', h5, h6, -⟩ := challenge_rel keccakf_length (st0_length keccakf_length) r ri l n
    rw [h5] at hf
    have e : o = (libChallenge st l n).1 := congrArg Prod.fst (Res.ok.inj hf)
    rw [← e]; exact h6
  · obtain ⟨outs, h⟩ := h
    obtain ⟨s0, h1, h2⟩ := Res.bind_eq_ok.1 h
    refine ⟨_, Res.bind_eq_ok.2 ⟨s0, h1, runOps_append _ _ _ _ _ _ _ [(libChallenge st l n).1] h2 ?_⟩⟩
    rw [runOps, hf, Res.ok_bind, runOps, Res.ok_bind]

/-- **C82, lengths.** A request for `n` bytes returns `n` bytes: the hypothesis of the theorems on
whole rounds and on the whole program holds of the library. -/
theorem C82_length (c : Curve G) : LengthOk (libEnv c) := by
  intro st l n
  obtain ⟨s, label, ops, outs, h⟩ := (st : LibState)
  have h1 := (at_challenge (st := ⟨s, label, ops, outs, h⟩) ⟨outs, h⟩ l n).1
  show (libChallenge ⟨s, label, ops, outs, h⟩ l n).1.length = n
  rw [h1, answer, outBytes_length]

/-! ### The scalars -/

/-- **C82, scalars.** Scalars have 32-byte encodings, different for different scalars, and reducing
the encoding gives the scalar back. -/
theorem C82_scalars (c : Curve G) (s t : ZMod Regev.P) :
    ((libEnv c).scalarBytes s).length = 32 ∧ ((libEnv c).scalarBytes s = (libEnv c).scalarBytes t ↔ s = t) ∧
      (libEnv c).scalarReduce ((libEnv c).scalarBytes s) = s := by
  have key : ∀ s : ZMod Regev.P, (libEnv c).scalarReduce ((libEnv c).scalarBytes s) = s := by
    intro s
    show ((Sc.leVal (Sc.zzBytes 32 s.val) : ℕ) : ZMod Regev.P) = s
    have h : Sc.leVal (Sc.zzBytes 32 (s.val : ℤ)) = s.val := by
      unfold Sc.zzBytes
      rw [Sc.bytesLoop_val, Int.natAbs_natCast]
      exact Nat.mod_eq_of_lt ((ZMod.val_lt s).trans (by decide +kernel))
    rw [h]
    exact ZMod.natCast_zmod_val s
  refine ⟨Sc.bytesLoop_length _ _, ⟨fun h => ?_, fun h => by rw [h]⟩, key s⟩
  rw [← key s, h, key t]

theorem card_residues (k d r : ℕ) (hd : 0 < d) (hr : r < d) :
    ((Finset.range k).filter fun w => w % d = r).card = k / d + if r < k % d then 1 else 0 := by
  have h := Nat.count_modEq_card k hd r
  rw [Nat.count_eq_card_filter_range, Nat.mod_eq_of_lt hr] at h
  rw [← h]
  congr 1
  ext w
  simp only [Finset.mem_filter, Nat.ModEq, Nat.mod_eq_of_lt hr]

/-- byte strings of length `k` are the numbers below `256^k` -/
theorem card_strings (k : ℕ) (p : ℕ → Prop) [DecidablePred p] :
    (Finset.univ.filter fun f : Fin k → UInt8 => p (Sc.leVal (List.ofFn f))).card =
      ((Finset.range (256 ^ k)).filter p).card := by
  have hlt : ∀ f : Fin k → UInt8, Sc.leVal (List.ofFn f) < 256 ^ k := by
    intro f; have := Sc.leVal_lt (List.ofFn f); rwa [List.length_ofFn] at this
  have hinj : Function.Injective fun f : Fin k → UInt8 => (⟨Sc.leVal (List.ofFn f), hlt f⟩ : Fin (256 ^ k)) := by
    intro f g hfg
    exact List.ofFn_injective (Sc.leVal_inj _ _ (by simp) (Fin.mk.inj_iff.1 hfg))
  have hbij := (Fintype.bijective_iff_injective_and_card _).2 ⟨hinj, by
    rw [Fintype.card_fin, Fintype.card_pi]
    simp [card_byte]⟩
  apply Finset.card_bij (fun f _ => Sc.leVal (List.ofFn f))
  · intro f hf
    rw [Finset.mem_filter] at hf ⊢
    rw [Finset.mem_range]
    exact ⟨hlt f, hf.2⟩
  · intro f _ g _ hfg
    exact List.ofFn_injective (Sc.leVal_inj _ _ (by simp) hfg)
  · intro w hw
    rw [Finset.mem_filter, Finset.mem_range] at hw
    obtain ⟨f, hf⟩ := hbij.2 ⟨w, hw.1⟩
    have hf : Sc.leVal (List.ofFn f) = w := congrArg Fin.val hf
    exact ⟨f, by rw [Finset.mem_filter]; exact ⟨Finset.mem_univ _, by rw [hf]; exact hw.2⟩, hf⟩

theorem card_reduction (q k : ℕ) [NeZero q] (r : ZMod q) :
    Set.ncard {b : Fin k → UInt8 | ((Sc.leVal (List.ofFn b) : ℕ) : ZMod q) = r} =
      256 ^ k / q + if r.val < 256 ^ k % q then 1 else 0 := by
  rw [← card_residues (256 ^ k) q r.val (NeZero.pos q) (ZMod.val_lt r), ← card_strings, ← Set.ncard_coe_finset]
  congr 1
  ext b
  simp only [Finset.coe_filter, Finset.mem_univ, true_and, Set.mem_setOf_eq]
  constructor
  · intro h
    rw [← h, ZMod.val_natCast]
  · intro h
    rw [← ZMod.natCast_zmod_val r, ← h, ZMod.natCast_mod]

/-- **C82, reduction.** 64 uniform bytes are reduced to a nearly uniform scalar: each residue is hit
by `2^512 / P` or one more of the `2^512` byte strings. -/
theorem C82_reduction (c : Curve G) (r : ZMod Regev.P) :
    Set.ncard {b : Fin 64 → UInt8 | (libEnv c).scalarReduce (List.ofFn b) = r} =
      2 ^ 512 / Regev.P + if r.val < 2 ^ 512 % Regev.P then 1 else 0 := by
  have h := card_reduction Regev.P 64 r
  rw [show (256 : ℕ) ^ 64 = 2 ^ 512 by decide +kernel] at h
  exact h

/-! ### The challenges of a verification -/

theorem at_lin {tag : Bytes} {ops : List TOp} {st : LibState} (c : Curve G) (h : At tag ops st) (l : Bytes)
    (cn : LinConstraint (ZMod Regev.P)) :
    At tag (ops ++ linOps (libEnv c) l cn) ((libEnv c).processLin st l cn) := by
  have fold : ∀ (ts : List (ℕ × ZMod Regev.P)) (ops : List TOp) (st : LibState), At tag ops st →
      At tag (ops ++ ts.map (fun x => .commit (bytesFromInt (throughInt x.1)) ((libEnv c).scalarBytes x.2)))
        (ts.foldl (fun st x => libCommit st (bytesFromInt (throughInt x.1)) ((libEnv c).scalarBytes x.2)) st) := by
    intro ts
    induction ts with
    | nil => intro ops st h; simpa using h
    | cons x ts ih =>
      intro ops st h
      rw [List.foldl_cons, List.map_cons, List.append_cons]
      exact ih _ _ (at_commit h _ _)
  have h1 := at_commit (fold cn.terms _ _ (at_commit h l [])) [98] ((libEnv c).scalarBytes cn.equalsTo)
  unfold linOps
  simp only [List.append_assoc] at h1 ⊢
  exact h1

theorem at_quad {tag : Bytes} {ops : List TOp} {st : LibState} (c : Curve G) (h : At tag ops st) (l : Bytes)
    (cn : QuadConstraint (ZMod Regev.P)) :
    At tag (ops ++ quadOps (libEnv c) l cn) ((libEnv c).processQuad st l cn) := by
  have h1 := at_commit (at_commit (at_commit h l []) [105, 110, 100, 101, 120, 101, 115]
    (cn.indexes.map bytesFromInt).flatten) [98] ((libEnv c).scalarBytes cn.equalsTo)
  unfold quadOps
  simp only [List.append_assoc, List.cons_append, List.nil_append] at h1 ⊢
  exact h1

theorem fold_run (c : Curve G) (tag : Bytes) (rest : List TOp) : ∀ (Ls Rs : List G) (n : ℕ) (hd : List TOp)
    (st : LibState), Ls.length = Rs.length → At tag hd st →
    (foldChallenges (libEnv c) n st Ls Rs).1 = (List.range Ls.length).map (fun j =>
      (Sc.leVal (answer tag (hd ++ before j (foldMsgs c.pointBytes n Ls Rs ++ rest)) [120] 64) : ZMod Regev.P)) ∧
    At tag (hd ++ foldMsgs c.pointBytes n Ls Rs) (foldChallenges (libEnv c) n st Ls Rs).2 := by
  intro Ls
  induction Ls with
  | nil =>
    intro Rs n hd st _ h
    exact ⟨rfl, by simpa [foldMsgs, foldChallenges] using h⟩
  | cons L Ls ih =>
    intro Rs n hd st hl h
    cases Rs with
    | nil => simp at hl
    | cons R Rs =>
      have h2 := at_commit (at_commit h (decBytes n ++ [76]) (c.pointBytes L)) [82] (c.pointBytes R)
      obtain ⟨h3, h4⟩ := at_challenge h2 [120] 64
      obtain ⟨i1, i2⟩ := ih Rs (2 ^ Ls.length) _ _ (by simpa using hl) h4
      refine ⟨?_, ?_⟩
      · rw [List.length_cons, List.range_succ_eq_map, List.map_cons, List.map_map]
        refine List.cons_eq_cons.2 ⟨?_, ?_⟩
        · show (Sc.leVal (libChallenge _ _ _).1 : ZMod Regev.P) = _
          rw [foldMsgs, List.cons_append, before, List.cons_append, before, List.cons_append, before]
          simp only [List.append_assoc, List.cons_append, List.nil_append] at h3
          rw [← h3]
          rfl
        · refine i1.trans (List.map_congr_left fun j _ => ?_)
          rw [Function.comp_apply, foldMsgs, List.cons_append, before, List.cons_append, before,
            List.cons_append, before]
          simp only [List.append_assoc, List.cons_append, List.nil_append]
      · rw [foldMsgs]
        simp only [List.append_assoc, List.cons_append, List.nil_append] at i2
        exact i2

theorem before_fold (pb : G → Bytes) (rest : List TOp) : ∀ (Ls Rs : List G) (n : ℕ), Ls.length = Rs.length →
    before Ls.length (foldMsgs pb n Ls Rs ++ rest) = foldMsgs pb n Ls Rs ++ before 0 rest := by
  intro Ls
  induction Ls with
  | nil => intro Rs n _; simp [foldMsgs]
  | cons L Ls ih =>
    intro Rs n hl
    cases Rs with
    | nil => simp at hl
    | cons R Rs =>
      simp only [foldMsgs, List.cons_append, List.length_cons, before]
      rw [ih Rs _ (by simpa using hl)]

/-- **C82, challenges of a linear proof.** Let a transcript with label `tag` have absorbed `hd`.  The
verifier (C11: its verdict is the equation `LinEq` on these values) then uses, as the generator F and
as its challenges, the answers of the Merlin transcript to the requests in the messages of the proof,
each after everything that precedes the request. -/
theorem C82_linear_challenges (c : Curve G) (tag : Bytes) (hd : List TOp) (st : LibState) (outs : List Bytes)
    (h : (do let s ← transcriptInit keccakf tag; runOps keccakf s hd) = .ok (outs, st.s))
    (n : ℕ) (pf : LinPf (ZMod Regev.P) G) (hl : pf.Ls.length = pf.Rs.length) :
    let ans := fun j l m => answer tag (hd ++ before j (linMsgs c.pointBytes n pf)) l m
    let d := deriveLin (libEnv c) pf n st
    d.Fg = c.fromUniform (ans 0 [70] 32) ∧
      d.xs = (List.range pf.Ls.length).map (fun j => ((Sc.leVal (ans (j + 1) [120] 64) : ℕ) : ZMod Regev.P)) ∧
      d.x = ((Sc.leVal (ans (pf.Ls.length + 1) [120] 64) : ℕ) : ZMod Regev.P) ∧
      ∃ (s' : LibState) (outs' : List Bytes), d.st = s' ∧
        (do let s ← transcriptInit keccakf tag; runOps keccakf s (hd ++ linMsgs c.pointBytes n pf)) =
          .ok (outs', s'.s) := by
  have h1 := at_commit (st := st) (ops := hd) ⟨outs, h⟩ [67] (c.pointBytes pf.C)
  obtain ⟨h2, h3⟩ := at_challenge h1 [70] 32
  obtain ⟨h4, h5⟩ := fold_run c tag [.commit [83] (c.pointBytes pf.S), .challenge [120] 64] pf.Ls pf.Rs n _ _ hl h3
  have h6 := at_commit h5 [83] (c.pointBytes pf.S)
  obtain ⟨h7, o, h8⟩ := at_challenge h6 [120] 64
  refine ⟨?_, ?_, ?_, _, o, rfl, ?_⟩
  · show c.fromUniform (libChallenge (libCommit st [67] (c.pointBytes pf.C)) [70] 32).1 = _
    rw [h2]
    simp only [linMsgs, before]
  · refine h4.trans (List.map_congr_left fun j _ => ?_)
    simp only [linMsgs, before, List.append_assoc, List.cons_append, List.nil_append]
  · show (Sc.leVal (libChallenge _ _ _).1 : ZMod Regev.P) = _
    refine (congrArg (fun b => ((Sc.leVal b : ℕ) : ZMod Regev.P)) h7).trans ?_
    simp only [linMsgs, before, List.append_assoc, List.cons_append, List.nil_append]
    rw [before_fold _ _ _ _ _ hl]
    simp only [before]
  · simp only [linMsgs, List.append_assoc, List.cons_append, List.nil_append] at h8 ⊢
    exact h8

/-- **C82, challenges of a quadratic proof.** The same for quadratic proofs. -/
theorem C82_quadratic_challenges (c : Curve G) (tag : Bytes) (hd : List TOp) (st : LibState) (outs : List Bytes)
    (h : (do let s ← transcriptInit keccakf tag; runOps keccakf s hd) = .ok (outs, st.s))
    (n : ℕ) (pf : QuadPf (ZMod Regev.P) G) (hl : pf.Ls.length = pf.Rs.length) :
    let ans := fun j l m => answer tag (hd ++ before j (quadMsgs c.pointBytes n pf)) l m
    let d := deriveQuad (libEnv c) pf n st
    d.Fg = c.fromUniform (ans 0 [70] 32) ∧
      d.xs = (List.range pf.Ls.length).map (fun j => ((Sc.leVal (ans (j + 1) [120] 64) : ℕ) : ZMod Regev.P)) ∧
      d.x = ((Sc.leVal (ans (pf.Ls.length + 1) [120] 64) : ℕ) : ZMod Regev.P) ∧
      ∃ (s' : LibState) (outs' : List Bytes), d.st = s' ∧
        (do let s ← transcriptInit keccakf tag; runOps keccakf s (hd ++ quadMsgs c.pointBytes n pf)) =
          .ok (outs', s'.s) := by
  have h1 := at_commit (st := st) (ops := hd) ⟨outs, h⟩ [67] (c.pointBytes pf.C)
  obtain ⟨h2, h3⟩ := at_challenge h1 [70] 32
  obtain ⟨h4, h5⟩ := fold_run c tag [.commit [83, 49] (c.pointBytes pf.S1), .commit [83, 50] (c.pointBytes pf.S2),
    .challenge [120] 64] pf.Ls pf.Rs n _ _ hl h3
  have h6 := at_commit (at_commit h5 [83, 49] (c.pointBytes pf.S1)) [83, 50] (c.pointBytes pf.S2)
  obtain ⟨h7, o, h8⟩ := at_challenge h6 [120] 64
  refine ⟨?_, ?_, ?_, _, o, rfl, ?_⟩
  · show c.fromUniform (libChallenge (libCommit st [67] (c.pointBytes pf.C)) [70] 32).1 = _
    rw [h2]
    simp only [quadMsgs, before]
  · refine h4.trans (List.map_congr_left fun j _ => ?_)
    simp only [quadMsgs, before, List.append_assoc, List.cons_append, List.nil_append]
  · show (Sc.leVal (libChallenge _ _ _).1 : ZMod Regev.P) = _
    refine (congrArg (fun b => ((Sc.leVal b : ℕ) : ZMod Regev.P)) h7).trans ?_
    simp only [quadMsgs, before, List.append_assoc, List.cons_append, List.nil_append]
    rw [before_fold _ _ _ _ _ hl]
    simp only [before]
  · simp only [quadMsgs, List.append_assoc, List.cons_append, List.nil_append] at h8 ⊢
    exact h8

/-- The hypothesis holds at the start of a verification: the constraint has been absorbed. -/
example (c : Curve G) (pf : LinPf (ZMod Regev.P) G) (cn : LinConstraint (ZMod Regev.P)) :
    ∃ (st : LibState) (outs : List Bytes), (libEnv c).processLin ((libEnv c).newCtx pf.tag) lblConstraint cn = st ∧
      (do let s ← transcriptInit keccakf pf.tag; runOps keccakf s (linOps (libEnv c) lblConstraint cn)) =
        .ok (outs, st.s) := by
  obtain ⟨o, h⟩ := at_lin c (at_init pf.tag) lblConstraint cn
  exact ⟨_, o, rfl, h⟩

/-! ### What a challenge depends on -/

theorem fold_inj (pb : G → Bytes) (hpb : Function.Injective pb) (cs cs' : List TOp) (ch ch' : TOp)
    (hcs : before 0 (cs ++ [ch]) = cs) (hcs' : before 0 (cs' ++ [ch']) = cs')
    (hh : ∃ l m r, cs = .commit l m :: r ∧ l.getLast? ≠ some 76)
    (hh' : ∃ l m r, cs' = .commit l m :: r ∧ l.getLast? ≠ some 76) : ∀ (Ls Rs Ls' Rs' : List G) (n n' j j' : ℕ),
    Ls.length = Rs.length → Ls'.length = Rs'.length → j ≤ Ls.length → j' ≤ Ls'.length →
    before j (foldMsgs pb n Ls Rs ++ (cs ++ [ch])) = before j' (foldMsgs pb n' Ls' Rs' ++ (cs' ++ [ch'])) →
    j = j' ∧ Ls.take (j + 1) = Ls'.take (j + 1) ∧ Rs.take (j + 1) = Rs'.take (j + 1) ∧
      (j = Ls.length → Ls = Ls' ∧ Rs = Rs' ∧ cs = cs') := by
  obtain ⟨l, m, r, e, hl⟩ := hh
  obtain ⟨l', m', r', e', hl'⟩ := hh'
  have no : ∀ (n : ℕ) (l : Bytes), l.getLast? ≠ some 76 → decBytes n ++ [76] ≠ l := by
    intro n l h h'; apply h; rw [← h']; simp
  intro Ls
  induction Ls with
  | nil =>
    intro Rs Ls' Rs' n n' j j' h1 h2 hj hj' h
    obtain rfl : j = 0 := by simpa using hj
    cases Rs with
    | cons => simp at h1
    | nil =>
      rw [foldMsgs] at h
      swap; · simp
      rw [List.nil_append, hcs] at h
      cases Ls' with
      | nil =>
        obtain rfl : j' = 0 := by simpa using hj'
        cases Rs' with
        | cons => simp at h2
        | nil =>
          rw [foldMsgs] at h
          swap; · simp
          rw [List.nil_append, hcs'] at h
          exact ⟨rfl, rfl, rfl, fun _ => ⟨rfl, rfl, h⟩⟩
      | cons L' Ls' =>
        cases Rs' with
        | nil => simp at h2
        | cons R' Rs' =>
          rw [foldMsgs, List.cons_append, before, e] at h
          simp only [List.cons.injEq, TOp.commit.injEq] at h
          exact absurd h.1.1.symm (no _ _ hl)
  | cons L Ls ih =>
    intro Rs Ls' Rs' n n' j j' h1 h2 hj hj' h
    cases Rs with
    | nil => simp at h1
    | cons R Rs =>
      cases Ls' with
      | nil =>
        obtain rfl : j' = 0 := by simpa using hj'
        cases Rs' with
        | cons => simp at h2
        | nil =>
          have e0 : foldMsgs pb n' ([] : List G) [] = [] := by simp [foldMsgs]
          rw [foldMsgs, List.cons_append, before, e0, List.nil_append, hcs', e'] at h
          simp only [List.cons.injEq, TOp.commit.injEq] at h
          exact absurd h.1.1 (no _ _ hl')
      | cons L' Ls' =>
        cases Rs' with
        | nil => simp at h2
        | cons R' Rs' =>
          simp only [foldMsgs, List.cons_append, before, List.cons.injEq, TOp.commit.injEq, true_and] at h
          obtain ⟨⟨-, hL⟩, hR, h⟩ := h
          obtain rfl := hpb hL
          obtain rfl := hpb hR
          cases j with
          | zero =>
            cases j' with
            | zero => exact ⟨rfl, by simp, by simp, fun h => by simp at h⟩
            | succ j' => simp [before] at h
          | succ j =>
            cases j' with
            | zero => simp [before] at h
            | succ j' =>
              simp only [before, List.cons.injEq, true_and] at h
              obtain ⟨i1, i2, i3, i4⟩ := ih Rs Ls' Rs' _ _ j j' (by simpa using h1) (by simpa using h2)
                (by simpa using hj) (by simpa using hj') h
              refine ⟨by rw [i1], by rw [List.take_succ_cons, List.take_succ_cons, i2],
                by rw [List.take_succ_cons, List.take_succ_cons, i3], fun hk => ?_⟩
              obtain ⟨k1, k2, k3⟩ := i4 (by simpa using hk)
              exact ⟨by rw [k1], by rw [k2], k3⟩

/-- **C82, what the challenges of a linear proof are bound to.** Request number 0 is for the generator
F, requests 1, …, k are the challenges of the k levels, request k+1 the last challenge.  The sponge
input from which request `j` of one verification is answered is the input of request `j'` of another
only if tag, constraint and commitment are the same, `j = j'`, the first `j` pairs (L, R) are the same,
and for the last request all the pairs and S are the same. -/
theorem C82_linear_binding [AddCommGroup G] [Module (ZMod Regev.P) G] (c : Curve G) (hpb : Function.Injective c.pointBytes)
    (cn cn' : LinConstraint (ZMod Regev.P)) (hcn : ∀ t ∈ cn.terms, t.1 < 2 ^ 32)
    (hcn' : ∀ t ∈ cn'.terms, t.1 < 2 ^ 32) (pf pf' : LinPf (ZMod Regev.P) G)
    (hl : pf.Ls.length = pf.Rs.length) (hl' : pf'.Ls.length = pf'.Rs.length) (j j' : ℕ)
    (hj : j ≤ pf.Ls.length + 1) (hj' : j' ≤ pf'.Ls.length + 1)
    (h : traceOf (transcriptOps pf.tag (linOps (libEnv c) lblConstraint cn ++
        before j (linMsgs c.pointBytes cn.terms.length pf))) =
      traceOf (transcriptOps pf'.tag (linOps (libEnv c) lblConstraint cn' ++
        before j' (linMsgs c.pointBytes cn'.terms.length pf')))) :
    pf.tag = pf'.tag ∧ cn = cn' ∧ pf.C = pf'.C ∧ j = j' ∧ pf.Ls.take j = pf'.Ls.take j ∧
      pf.Rs.take j = pf'.Rs.take j ∧
      (j = pf.Ls.length + 1 → pf.Ls = pf'.Ls ∧ pf.Rs = pf'.Rs ∧ pf.S = pf'.S) := by
  obtain ⟨h1, h2⟩ := C51_injective _ _ _ _ h
  obtain ⟨-, h3, h4⟩ := linOps_append_inj (libEnv c) (fun s t e => (C82_scalars c s t).2.1.1 e) _ _ _ _ _ _
    hcn hcn' h2
  simp only [linMsgs, before, List.cons.injEq, TOp.commit.injEq, true_and] at h4
  obtain ⟨hC, h5⟩ := h4
  refine ⟨h1, h3, hpb hC, ?_⟩
  cases j with
  | zero =>
    cases j' with
    | zero => exact ⟨rfl, by simp, by simp, fun h => by simp at h⟩
    | succ j' => simp [before] at h5
  | succ j =>
    cases j' with
    | zero => simp [before] at h5
    | succ j' =>
      simp only [before, List.cons.injEq, true_and] at h5
      have e : ∀ p : G, [TOp.commit [83] (c.pointBytes p), .challenge [120] 64] =
        [TOp.commit [83] (c.pointBytes p)] ++ [.challenge [120] 64] := fun p => rfl
      rw [e, e] at h5
      obtain ⟨i1, i2, i3, i4⟩ := fold_inj c.pointBytes hpb _ _ _ _ (by simp [before]) (by simp [before])
        ⟨_, _, _, rfl, by simp⟩ ⟨_, _, _, rfl, by simp⟩ _ _ _ _ _ _ j j' hl hl' (by omega) (by omega) h5
      refine ⟨by rw [i1], i2, i3, fun hk => ?_⟩
      obtain ⟨k1, k2, k3⟩ := i4 (by omega)
      simp only [List.cons.injEq, TOp.commit.injEq, true_and, and_true] at k3
      exact ⟨k1, k2, hpb k3⟩

/-- **C82, what the challenges of a quadratic proof are bound to.** -/
theorem C82_quadratic_binding [AddCommGroup G] [Module (ZMod Regev.P) G] (c : Curve G) (hpb : Function.Injective c.pointBytes)
    (cn cn' : QuadConstraint (ZMod Regev.P)) (hcn : ∀ t ∈ cn.indexes, t < 2 ^ 64)
    (hcn' : ∀ t ∈ cn'.indexes, t < 2 ^ 64) (pf pf' : QuadPf (ZMod Regev.P) G)
    (hl : pf.Ls.length = pf.Rs.length) (hl' : pf'.Ls.length = pf'.Rs.length) (j j' : ℕ)
    (hj : j ≤ pf.Ls.length + 1) (hj' : j' ≤ pf'.Ls.length + 1)
    (h : traceOf (transcriptOps pf.tag (quadOps (libEnv c) lblConstraint cn ++
        before j (quadMsgs c.pointBytes cn.indexes.length pf))) =
      traceOf (transcriptOps pf'.tag (quadOps (libEnv c) lblConstraint cn' ++
        before j' (quadMsgs c.pointBytes cn'.indexes.length pf')))) :
    pf.tag = pf'.tag ∧ cn = cn' ∧ pf.C = pf'.C ∧ j = j' ∧ pf.Ls.take j = pf'.Ls.take j ∧
      pf.Rs.take j = pf'.Rs.take j ∧
      (j = pf.Ls.length + 1 → pf.Ls = pf'.Ls ∧ pf.Rs = pf'.Rs ∧ pf.S1 = pf'.S1 ∧ pf.S2 = pf'.S2) := by
  obtain ⟨h1, h2⟩ := C51_injective _ _ _ _ h
  obtain ⟨h3, h4⟩ := List.append_inj h2 (by simp [quadOps])
  have h3 := (C52_quadratic (libEnv c) (fun s t e => (C82_scalars c s t).2.1.1 e) [] _ _ _ _ hcn hcn'
    (by rw [recEnv_quad, recEnv_quad, h3])).2
  simp only [quadMsgs, before, List.cons.injEq, TOp.commit.injEq, true_and] at h4
  obtain ⟨hC, h5⟩ := h4
  refine ⟨h1, h3, hpb hC, ?_⟩
  cases j with
  | zero =>
    cases j' with
    | zero => exact ⟨rfl, by simp, by simp, fun h => by simp at h⟩
    | succ j' => simp [before] at h5
  | succ j =>
    cases j' with
    | zero => simp [before] at h5
    | succ j' =>
      simp only [before, List.cons.injEq, true_and] at h5
      have e : ∀ p q : G, [TOp.commit [83, 49] (c.pointBytes p), .commit [83, 50] (c.pointBytes q),
          .challenge [120] 64] =
        [TOp.commit [83, 49] (c.pointBytes p), .commit [83, 50] (c.pointBytes q)] ++ [.challenge [120] 64] :=
          fun p q => rfl
      rw [e, e] at h5
      obtain ⟨i1, i2, i3, i4⟩ := fold_inj c.pointBytes hpb _ _ _ _ (by simp [before]) (by simp [before])
        ⟨_, _, _, rfl, by simp⟩ ⟨_, _, _, rfl, by simp⟩ _ _ _ _ _ _ j j' hl hl' (by omega) (by omega) h5
      refine ⟨by rw [i1], i2, i3, fun hk => ?_⟩
      obtain ⟨k1, k2, k3⟩ := i4 (by omega)
      simp only [List.cons.injEq, TOp.commit.injEq, true_and, and_true] at k3
      exact ⟨k1, k2, hpb k3.1, hpb k3.2⟩

/-- Points with different encodings exist: an injective encoding of the residues. -/
example : ∃ c : Curve (ZMod Regev.P), Function.Injective c.pointBytes :=
  ⟨⟨fun s => Sc.zzBytes 32 s.val, fun _ => 0, fun _ => 0, 1⟩, fun s t h =>
    (C82_scalars (⟨fun s => Sc.zzBytes 32 s.val, fun _ => 0, fun _ => 0, 1⟩ : Curve (ZMod Regev.P)) s t).2.1.1 h⟩

/-! ### The program with the library's environment -/

/-- The bounds of the constructor of `VerifierData` are precise enough. -/
theorem precise_bounds (n : ℕ) (h5 : 5 ≤ n) (hn : n < 2 ^ 30) : Precise (verifierBounds Regev.delta) n := by
  intro gk H hs
  obtain ⟨P, b, m, h1, h2, h3, h4, h5⟩ := C67_model Regev.delta gk H hs h5 hn
  exact ⟨P, h1, h2, h3, h4, b, m, h5⟩

/-- **C82, the program.** With the transcripts and scalars of the library and the bounds of its
constructor, for any randomness: started without arguments (512 parties) the program of main.cpp ends
with an exception or leaves its arrays; with 256 or 1024 parties it succeeds or throws. -/
theorem C82_program [AddCommGroup G] [Module (ZMod Regev.P) G] (c : Curve G) (getG getH : ℕ → G)
    (ntlKernel : List (List (ZMod Regev.P)) → List (List (ZMod Regev.P)))
    (hker : ∀ G nr nc, G.length = nr → (∀ r ∈ G, r.length = nc) → GeneratesLeftKernel (ntlKernel G) G nr nc)
    (crs : ℕ → ℕ → Elt (ZMod Regev.P) 2) (C : MainCoins Regev.P) (label : Bytes)
    (rnd0 fresh : Blocks (ZMod Regev.P)) (r : ZMod Regev.P) {tests : ℕ → Tests}
    (hT : ∀ k, NoFalsePrimes (tests k).probPrime) (small : ℕ → SmallRnd Regev.P) :
    let out := fun n : ℕ => mainProve (libEnv c) getG getH ntlKernel (verifierBounds Regev.delta) Regev.delta
      (setParams 2 n).1 n (setParams 2 n).2.1 (setParams 2 n).2.2 crs 1 C ((libEnv c).newCtx label) rnd0 fresh r
      tests small
    (out 512 = .throw ∨ out 512 = .ub) ∧ ((∃ x, out 256 = .ok x) ∨ out 256 = .throw) ∧
      ((∃ x, out 1024 = .ok x) ∨ out 1024 = .throw) :=
  ⟨C66_default_run (C82_length c) getG getH ntlKernel hker _ (precise_bounds 512 (by norm_num) (by norm_num)) crs C _
      rnd0 fresh r hT small,
    C66_good_run (C82_length c) getG getH ntlKernel hker _ 256 (Or.inl rfl)
      (precise_bounds 256 (by norm_num) (by norm_num)) crs C _ rnd0 fresh r hT small,
    C66_good_run (C82_length c) getG getH ntlKernel hker _ 1024 (Or.inr rfl)
      (precise_bounds 1024 (by norm_num) (by norm_num)) crs C _ rnd0 fresh r hT small⟩

end Verif.Props
