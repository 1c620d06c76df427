/-
C93: the blinding factors depend on everything.
-/
import Verif.Model.RngWipe
import Verif.Spec.Blinding
import Verif.Props.Merlin
import Verif.Props.Keccak

namespace Verif.Props
open Verif Spec Merlin

/-- What committing one secret adds to the trace. -/
def secretOps (w : Bytes × Bytes) : List SOp :=
  [⟨6, (w.1 ++ le4 w.2.length).map .xor⟩, ⟨6, w.2.map .over⟩]

theorem rngCommit_trace {s0 : Bytes} (hs0 : s0.length = 200) {r : Rng} {t : Trace} (h : Rel keccakf s0 r.sctx t)
    (hi : TInv t) (hf : r.finalized = false) (l w : Bytes) :
    ∃ r', rngCommit keccakf r l w = .ok r' ∧ r'.finalized = false ∧
      Rel keccakf s0 r'.sctx ((secretOps (l, w)).foldl Trace.op t) := by
  obtain ⟨s1, h1, h2, h3⟩ := metaAd_rel keccakf_length hs0 h hi l
  obtain ⟨s2, h4, h5, h6⟩ := metaAd_more keccakf_length hs0 h2 (hi.op _) h3 (le4 w.length)
  rw [op_append] at h5
  obtain ⟨s3, h7, h8, h9⟩ := key_rel keccakf_length hs0 h5 (hi.op _) w
  refine ⟨{ r with sctx := s3 }, ?_, hf, ?_⟩
  · unfold rngCommit
    rw [if_neg (by rw [hf]; simp), h1, Res.ok_bind, h4, Res.ok_bind, h7, Res.ok_bind]
  · simpa only [secretOps, List.foldl_cons, List.foldl_nil, List.map_append] using h8

theorem witnessLoop_trace {s0 : Bytes} (hs0 : s0.length = 200) (ws : List Bytes) :
    ∀ {r : Rng} {t : Trace} (k : Nat), Rel keccakf s0 r.sctx t → TInv t → r.finalized = false →
    ∃ r', witnessLoop keccakf r k ws = .ok r' ∧ r'.finalized = false ∧
      Rel keccakf s0 r'.sctx
        (((ws.mapIdx fun i w => (bytesFromInt (k + i), w)).flatMap secretOps).foldl Trace.op t) := by
  induction ws with
  | nil => intro r t k h hi hf; exact ⟨r, rfl, hf, h⟩
  | cons w ws ih =>
    intro r t k h hi hf
    obtain ⟨r1, h1, h2, h3⟩ := rngCommit_trace hs0 h hi hf (bytesFromInt k) w
    obtain ⟨r2, h5, h6, h7⟩ := ih (k + 1) h3 (hi.ops _) h2
    refine ⟨r2, by rw [witnessLoop, h1, Res.ok_bind, h5], h6, ?_⟩
    rw [List.mapIdx_cons, List.flatMap_cons, List.foldl_append]
    simpa only [Nat.add_zero, Nat.add_assoc, Nat.add_comm 1] using h7

theorem commitWitness_trace {s0 : Bytes} (hs0 : s0.length = 200) {r : Rng} {t : Trace} (h : Rel keccakf s0 r.sctx t)
    (hi : TInv t) (hf : r.finalized = false) (label : Bytes) (n : Nat) (xes : List Bytes) (ys : Option (List Bytes))
    (hx : n ≤ xes.length) (hy : ∀ y, ys = some y → n ≤ y.length) :
    ∃ r', commitWitness keccakf r label n xes ys = .ok r' ∧ r'.finalized = false ∧
      Rel keccakf s0 r'.sctx (((secrets label n xes ys).flatMap secretOps).foldl Trace.op t) := by
  unfold commitWitness
  by_cases hn : n = 0
  · rw [if_pos hn]
    refine ⟨r, rfl, hf, ?_⟩
    subst hn
    simpa [secrets] using h
  · rw [if_neg hn, rdN_ok hx, Res.ok_bind]
    obtain ⟨x, xs, hxs⟩ : ∃ x xs, xes.take n = x :: xs := by
      cases hc : xes.take n with
      | nil =>
        have := congrArg List.length hc
        rw [List.length_take, List.length_nil] at this
        omega
      | cons x xs => exact ⟨x, xs, rfl⟩
    have hlen : xs.length + 1 = n := by
      have := congrArg List.length hxs
      rw [List.length_take, List.length_cons] at this
      omega
    obtain ⟨r1, a1, a2, a3⟩ := rngCommit_trace hs0 h hi hf label x
    obtain ⟨r2, b1, b2, b3⟩ := witnessLoop_trace hs0 xs 1 a3 (hi.ops _) a2
    rw [hxs, List.headD_cons, a1, Res.ok_bind, List.tail_cons, b1, Res.ok_bind]
    cases ys with
    | none =>
      refine ⟨r2, rfl, b2, ?_⟩
      rw [secrets, hxs]
      simp only [Option.getD_none, List.take_nil, List.append_nil, List.mapIdx_cons, if_true, List.flatMap_cons,
        List.foldl_append]
      simpa only [Nat.add_comm 1, Nat.add_eq_zero_iff, one_ne_zero, and_false, if_false] using b3
    | some y =>
      obtain ⟨r3, c1, c2, c3⟩ := witnessLoop_trace hs0 (y.take n) n b3 ((hi.ops _).ops _) b2
      simp only
      rw [rdN_ok (hy y rfl), Res.ok_bind]
      refine ⟨r3, c1, c2, ?_⟩
      rw [secrets, hxs]
      simp only [Option.getD_some, List.cons_append, List.mapIdx_cons, if_true, List.flatMap_cons, List.mapIdx_append,
        List.flatMap_append, List.foldl_append]
      simpa only [Nat.add_comm 1, Nat.add_eq_zero_iff, one_ne_zero, and_false, if_false, ← hlen, Nat.add_assoc,
        Nat.add_comm, Nat.add_left_comm] using c3

/-- **C93, what the factors are.** From every reachable transcript, `newBlindingFactors` returns the
first and the last 64 of the 128 bytes that the sponge gives after the transcript, the secrets and the
entropy. -/
theorem C93_bytes (tag : Bytes) (ops : List TOp) (s : Strobe) (outs : List Bytes)
    (h : (do let s ← transcriptInit keccakf tag; runOps keccakf s ops) = .ok (outs, s))
    (label : Bytes) (n : Nat) (xes : List Bytes) (ys : Option (List Bytes)) (entropy : Bytes)
    (hx : n ≤ xes.length) (hy : ∀ y, ys = some y → n ≤ y.length) (he : entropy.length = 32) :
    ∃ a b, newBlindingFactors keccakf s label n xes ys entropy = .ok (a, b, s) ∧ a.length = 64 ∧ b.length = 64 ∧
      a ++ b = outBytes keccakf (st0 keccakf)
        ((traceOf (blindingOps tag ops (secrets label n xes ys) entropy)).begin 7) 128 := by
  obtain ⟨s0, s1, h1, h2, h3, h4⟩ := run_rel tag ops
  rw [h1, Res.ok_bind, h2] at h
  obtain ⟨rfl⟩ : s1 = s := congrArg Prod.snd (Res.ok.inj h)
  have hl := st0_length keccakf_length
  obtain ⟨r1, a1, a2, a3⟩ := commitWitness_trace hl (r := rngInit s) h3 h4 rfl label n xes ys hx hy
  have hi1 := h4.ops ((secrets label n xes ys).flatMap secretOps)
  obtain ⟨s2, b1, b2, b3⟩ := metaAd_rel keccakf_length hl a3 hi1 [114, 110, 103]
  obtain ⟨s3, c1, c2, c3⟩ := key_rel keccakf_length hl b2 (hi1.op _) entropy
  obtain ⟨s4, d1, d2, d3⟩ := metaAd_more keccakf_length hl c2 ((hi1.op _).op _) c3 (le4 128)
  rw [op_append] at d2
  obtain ⟨o, s5, e1, e2, e3, e4⟩ := prf_rel keccakf_length hl d2 ((hi1.op _).op _) 128
  have ho : o.length = 128 := by rw [e2, outBytes_length]
  refine ⟨o.take 64, o.drop 64, ?_, by rw [List.length_take, ho]; rfl, by rw [List.length_drop, ho], ?_⟩
  · have hfin : rngFinalize keccakf r1 entropy = .ok ⟨s3, true⟩ := by
      unfold rngFinalize
      rw [if_neg (by rw [a2]; simp), b1, Res.ok_bind, rdN_ok (by omega), Res.ok_bind, List.take_of_length_le (by omega), c1,
        Res.ok_bind]
    have hrand : rngRandom keccakf ⟨s3, true⟩ 128 = .ok (o, ⟨s5, true⟩) := by
      unfold rngRandom
      rw [if_pos rfl, d1, Res.ok_bind, e1, Res.ok_bind]
    unfold newBlindingFactors
    rw [a1, Res.ok_bind, hfin, Res.ok_bind, hrand, Res.ok_bind]
  · have ht : traceOf (blindingOps tag ops (secrets label n xes ys) entropy) =
        ((((secrets label n xes ys).flatMap secretOps).foldl Trace.op (traceOf (transcriptOps tag ops))).op
          ⟨6, [114, 110, 103].map .xor⟩).op ⟨6, entropy.map .over ++ (le4 128).map .xor⟩ := by
      unfold blindingOps traceOf
      rw [List.foldl_append, List.foldl_append, List.foldl_cons, List.foldl_cons, List.foldl_nil]
      rfl
    rw [List.take_append_drop, e2, ht]

/-! ### The encoding is injective -/

theorem map_over_inj {a b : Bytes} (h : a.map Cell.over = b.map Cell.over) : a = b :=
  List.map_injective_iff.2 (fun _ _ h => by simpa using h) h

/-- The end of the operations, parsed from the front. -/
theorem secretOps_inj (e e' : Bytes) (ws ws' : List (Bytes × Bytes))
    (h : ws.flatMap secretOps ++ [⟨6, [114, 110, 103].map .xor⟩, ⟨6, e.map .over ++ (le4 128).map .xor⟩] =
      ws'.flatMap secretOps ++ [⟨6, [114, 110, 103].map .xor⟩, ⟨6, e'.map .over ++ (le4 128).map .xor⟩]) :
    ws = ws' ∧ e = e' := by
  have hend : ∀ (w : Bytes) (e : Bytes), w.map Cell.over ≠ e.map .over ++ (le4 128).map .xor := by
    intro w e h
    have hm : Cell.xor 0 ∈ w.map Cell.over := by
      rw [h]
      refine List.mem_append_right _ (List.mem_map.2 ⟨0, by decide, rfl⟩)
    obtain ⟨x, -, hx⟩ := List.mem_map.1 hm
    cases hx
  induction ws generalizing ws' with
  | nil =>
    cases ws' with
    | nil =>
      simp only [List.flatMap_nil, List.nil_append, List.cons.injEq, SOp.mk.injEq, and_true, true_and] at h
      exact ⟨rfl, map_over_inj (List.append_cancel_right h)⟩
    | cons w' ws' =>
      simp only [List.flatMap_nil, List.nil_append, List.flatMap_cons, secretOps, List.cons_append, List.cons.injEq,
        SOp.mk.injEq, true_and] at h
      exact absurd h.2.1.symm (hend _ _)
  | cons w ws ih =>
    cases ws' with
    | nil =>
      simp only [List.flatMap_nil, List.nil_append, List.flatMap_cons, secretOps, List.cons_append, List.cons.injEq,
        SOp.mk.injEq, true_and] at h
      exact absurd h.2.1 (hend _ _)
    | cons w' ws' =>
      simp only [List.flatMap_cons, secretOps, List.cons_append, List.nil_append, List.cons.injEq, SOp.mk.injEq,
        true_and] at h
      obtain ⟨h1, h2, h3⟩ := h
      obtain ⟨h4, h5⟩ := ih ws' h3
      have h6 := List.append_inj' (map_xor_inj h1) (by rw [le4_length, le4_length])
      refine ⟨?_, h5⟩
      rw [h4, show w = w' from Prod.ext h6.1 (map_over_inj h2)]

theorem blindingOps_split (ops ops' : List TOp) (tl tl' : List SOp)
    (htl : ∀ o o' os, tl = o :: o' :: os → o'.flags = 6) (htl' : ∀ o o' os, tl' = o :: o' :: os → o'.flags = 6)
    (hn : 2 ≤ tl.length) (hn' : 2 ≤ tl'.length)
    (h : ops.flatMap TOp.sops ++ tl = ops'.flatMap TOp.sops ++ tl') : ops = ops' ∧ tl = tl' := by
  have two : ∀ t : List SOp, 2 ≤ t.length → ∃ a b c, t = a :: b :: c := by
    intro t ht
    match t, ht with
    | a :: b :: c, _ => exact ⟨a, b, c, rfl⟩
  have no : ∀ (x : TOp) (xs : List SOp) (t : List SOp), 2 ≤ t.length → (∀ o o' os, t = o :: o' :: os → o'.flags = 6) →
      x.sops ++ xs ≠ t := by
    intro x xs t ht h6 he
    cases x with
    | commit l m => exact absurd (h6 _ _ _ he.symm) (by simp)
    | challenge l m => exact absurd (h6 _ _ _ he.symm) (by simp)
  induction ops generalizing ops' with
  | nil =>
    cases ops' with
    | nil => exact ⟨rfl, by simpa using h⟩
    | cons x xs =>
      rw [List.flatMap_nil, List.nil_append, List.flatMap_cons, List.append_assoc] at h
      exact absurd h.symm (no _ _ _ hn htl)
  | cons x xs ih =>
    cases ops' with
    | nil =>
      rw [List.flatMap_nil, List.nil_append, List.flatMap_cons, List.append_assoc] at h
      exact absurd h (no _ _ _ hn' htl')
    | cons y ys =>
      rw [List.flatMap_cons, List.flatMap_cons, List.append_assoc, List.append_assoc] at h
      have hl : ∀ z : TOp, z.sops.length = 2 := by intro z; cases z <;> rfl
      obtain ⟨h1, h2⟩ := List.append_inj h (by rw [hl, hl])
      obtain ⟨h3, h4⟩ := ih ys h2
      have h5 := sops_inj [x] [y] (by simpa using h1)
      exact ⟨by rw [h3, (List.cons.inj h5).1], h4⟩

/-- **C93, nothing is lost.** If two calls feed the same blocks to the sponge, they were made on
transcripts with the same label and the same messages and challenges, with the same labelled secrets
in the same order and with the same entropy. -/
theorem C93_injective (tag tag' : Bytes) (ops ops' : List TOp) (ws ws' : List (Bytes × Bytes)) (e e' : Bytes)
    (h : traceOf (blindingOps tag ops ws e) = traceOf (blindingOps tag' ops' ws' e')) :
    tag = tag' ∧ ops = ops' ∧ ws = ws' ∧ e = e' := by
  have h1 := traceOf_inj h
  unfold blindingOps transcriptOps at h1
  simp only [List.cons_append, List.append_assoc] at h1
  have h2 := (List.cons.inj h1).2
  have tail6 : ∀ (ws : List (Bytes × Bytes)) (e : Bytes) o o' os,
      (ws.flatMap fun w => [(⟨6, (w.1 ++ le4 w.2.length).map .xor⟩ : SOp), ⟨6, w.2.map .over⟩]) ++
        [⟨6, [114, 110, 103].map .xor⟩, ⟨6, e.map .over ++ (le4 128).map .xor⟩] = o :: o' :: os → o'.flags = 6 := by
    intro ws e o o' os he
    cases ws with
    | nil =>
      simp only [List.flatMap_nil, List.nil_append, List.cons.injEq] at he
      rw [← he.2.1]
    | cons w ws =>
      simp only [List.flatMap_cons, List.cons_append, List.nil_append, List.cons.injEq] at he
      rw [← he.2.1]
  obtain ⟨h3, h4⟩ := blindingOps_split _ _ _ _ (tail6 ws e) (tail6 ws' e')
    (by rw [List.length_append]; simp) (by rw [List.length_append]; simp) h2
  obtain ⟨h5, h6⟩ := secretOps_inj e e' ws ws' h4
  simp only [List.cons.injEq, TOp.commit.injEq, true_and] at h3
  exact ⟨h3.1, h3.2, h5, h6⟩

theorem secrets_eq_iff (label label' : Bytes) (n n' : Nat) (xes xes' : List Bytes) (ys ys' : Option (List Bytes)) :
    secrets label n xes ys = secrets label' n' xes' ys' ↔
      xes.take n ++ (ys.getD []).take n = xes'.take n' ++ (ys'.getD []).take n' ∧
        (xes.take n ++ (ys.getD []).take n ≠ [] → label = label') := by
  unfold secrets
  generalize xes.take n ++ (ys.getD []).take n = a
  generalize xes'.take n' ++ (ys'.getD []).take n' = b
  have hsnd : ∀ (l : Bytes) (a : List Bytes),
      (a.mapIdx fun i w => ((if i = 0 then l else bytesFromInt i, w) : Bytes × Bytes)).map Prod.snd = a := by
    intro l a
    refine List.ext_getElem (by simp) fun i h1 h2 => by simp
  constructor
  · intro h
    have h1 : a = b := by rw [← hsnd label a, h, hsnd]
    subst h1
    refine ⟨rfl, fun hne => ?_⟩
    cases a with
    | nil => exact absurd rfl hne
    | cons x xs =>
      rw [List.mapIdx_cons, List.mapIdx_cons] at h
      exact congrArg Prod.fst (List.cons.inj h).1
  · rintro ⟨rfl, h⟩
    cases a with
    | nil => rfl
    | cons x xs => rw [h (by simp)]

/-- **C93, exactly which calls agree.** Two calls feed the same blocks to the sponge exactly if the
transcripts agree, the entropy agrees, the secrets of the two arrays, one after the other, agree, and
the labels agree or there are no secrets. -/
theorem C93_calls (tag tag' : Bytes) (ops ops' : List TOp) (label label' : Bytes) (n n' : Nat) (xes xes' : List Bytes)
    (ys ys' : Option (List Bytes)) (e e' : Bytes) :
    traceOf (blindingOps tag ops (secrets label n xes ys) e) =
        traceOf (blindingOps tag' ops' (secrets label' n' xes' ys') e') ↔
      tag = tag' ∧ ops = ops' ∧ e = e' ∧
        xes.take n ++ (ys.getD []).take n = xes'.take n' ++ (ys'.getD []).take n' ∧
        (xes.take n ++ (ys.getD []).take n ≠ [] → label = label') := by
  constructor
  · intro h
    obtain ⟨h1, h2, h3, h4⟩ := C93_injective _ _ _ _ _ _ _ _ h
    exact ⟨h1, h2, h4, (secrets_eq_iff _ _ _ _ _ _ _ _).1 h3⟩
  · rintro ⟨rfl, rfl, rfl, h⟩
    rw [(secrets_eq_iff _ _ _ _ _ _ _ _).2 h]

/-- **C93, the arrays are not told apart.** The boundary between the two arrays is not absorbed: one
array of `2n` secrets gives the same factors as two arrays of `n`. -/
theorem C93_two_arrays (tag : Bytes) (ops : List TOp) (s : Strobe) (outs : List Bytes)
    (h : (do let s ← transcriptInit keccakf tag; runOps keccakf s ops) = .ok (outs, s))
    (label : Bytes) (xes ys : List Bytes) (entropy : Bytes) (hl : xes.length = ys.length) (he : entropy.length = 32) :
    newBlindingFactors keccakf s label xes.length xes (some ys) entropy =
      newBlindingFactors keccakf s label (2 * xes.length) (xes ++ ys) none entropy := by
  obtain ⟨a, b, h1, h2, h3, h4⟩ := C93_bytes tag ops s outs h label xes.length xes (some ys) entropy le_rfl
    (by rintro _ ⟨⟩; exact hl.le) he
  obtain ⟨a', b', h1', h2', h3', h4'⟩ := C93_bytes tag ops s outs h label (2 * xes.length) (xes ++ ys) none entropy
    (by rw [List.length_append]; omega) (by simp) he
  have hs : secrets label xes.length xes (some ys) = secrets label (2 * xes.length) (xes ++ ys) none := by
    rw [secrets_eq_iff]
    refine ⟨?_, fun _ => rfl⟩
    rw [Option.getD_some, Option.getD_none, List.take_nil, List.append_nil, List.take_of_length_le le_rfl,
      List.take_of_length_le hl.ge, List.take_of_length_le (by rw [List.length_append]; omega)]
  rw [hs] at h4
  obtain ⟨e1, e2⟩ := List.append_inj (h4.trans h4'.symm) (h2.trans h2'.symm)
  rw [h1, h1', e1, e2]

/-- **C93, no secrets.** A call with `n = 0` ignores its label and both arrays (even missing ones):
its factors are a function of the transcript and the entropy alone, so the randomness of the last two
commitments of a quadratic proof (the call labelled "UV") is not tied to the witness. -/
theorem C93_no_secrets (s : Strobe) (label label' : Bytes) (xes xes' : List Bytes) (ys ys' : Option (List Bytes))
    (entropy : Bytes) :
    newBlindingFactors keccakf s label 0 xes ys entropy = newBlindingFactors keccakf s label' 0 xes' ys' entropy := by
  unfold newBlindingFactors commitWitness
  rw [if_pos rfl, if_pos rfl]

/-! ### Different entropy -/

theorem applyCells_over (e : Bytes) (cs : List Cell) (st : Bytes) (h : e.length ≤ st.length) :
    applyCells (e.map .over ++ cs) st = e ++ applyCells cs (st.drop e.length) := by
  induction e generalizing st with
  | nil => rfl
  | cons x e ih =>
    cases st with
    | nil => simp at h
    | cons y st =>
      rw [List.map_cons, List.cons_append, applyCells, ih st (by simpa using h)]
      rfl

theorem xorAt_take (st : Bytes) (i k : Nat) (b : UInt8) (h : k ≤ i) : (xorAt st i b).take k = st.take k := by
  unfold xorAt
  rw [List.take_set_of_le h]

theorem put_all_short (cs : List Cell) (t : Trace) (h : t.cur.length + cs.length < 166) :
    cs.foldl Trace.put t = { t with cur := t.cur ++ cs } := by
  induction cs generalizing t with
  | nil => simp
  | cons c cs ih =>
    rw [List.length_cons] at h
    have hp : t.put c = { t with cur := t.cur ++ [c] } := by
      unfold Trace.put
      rw [if_neg (by simp; omega)]
    rw [List.foldl_cons, hp, ih _ (by simp; omega)]
    simp

/-- After the framing of a keyed operation the current block is empty. -/
theorem begin_closed (t : Trace) (f : UInt8) (hf : f &&& 36 ≠ 0) : (t.begin f).cur = [] ∧ (t.begin f).pb = 0 ∨
    (t.begin f).cur = [] := by
  right
  unfold Trace.begin
  simp only
  split
  · rfl
  · rename_i h
    by_contra hc
    exact h ⟨hf, hc⟩

theorem last_block (t : Trace) : ∃ bs : List Block, ∃ p : Nat, ∃ tl : List Cell, tl.length = 6 ∧ ∀ e : Bytes, e.length = 32 →
    ((t.op ⟨6, e.map .over ++ (le4 128).map .xor⟩).begin 7) = ⟨bs ++ [(e.map .over ++ tl, p)], [], 0⟩ := by
  have hc : (t.begin 6).cur = [] := by
    rcases begin_closed t 6 (by decide) with h | h
    · exact h.1
    · exact h
  refine ⟨(t.begin 6).blocks, 37, (le4 128).map .xor ++ [.xor (UInt8.ofNat (t.begin 6).pb), .xor 7], ?_, fun e he => ?_⟩
  · rw [List.length_append, List.length_map, le4_length]; rfl
  · have h1 : t.op ⟨6, e.map .over ++ (le4 128).map .xor⟩ =
        ⟨(t.begin 6).blocks, e.map .over ++ (le4 128).map .xor, (t.begin 6).pb⟩ := by
      unfold Trace.op
      rw [put_all_short _ _ (by simp [hc, le4_length, he])]
      simp [hc]
    rw [h1]
    clear h1 hc
    generalize t.begin 6 = u
    have hlen : (e.map Cell.over ++ (le4 128).map Cell.xor).length = 36 := by simp [le4_length, he]
    unfold Trace.begin
    have h2 : ∀ (c : List Cell) (x y : Cell) (p : Nat), c.length = 36 →
        (((⟨u.blocks, c, p⟩ : Trace).put x).put y) = ⟨u.blocks, c ++ [x, y], p⟩ := by
      intro c x y p hcl
      have := put_all_short [x, y] ⟨u.blocks, c, p⟩ (by simp [hcl])
      simpa using this
    simp only
    rw [h2 _ _ _ _ hlen, if_pos ⟨by decide, by simp⟩, hlen]
    unfold Trace.close
    simp

theorem blinding_trace (tag : Bytes) (ops : List TOp) (ws : List (Bytes × Bytes)) (e : Bytes) :
    traceOf (blindingOps tag ops ws e) =
      (((ws.flatMap secretOps).foldl Trace.op (traceOf (transcriptOps tag ops))).op ⟨6, [114, 110, 103].map .xor⟩).op
        ⟨6, e.map .over ++ (le4 128).map .xor⟩ := by
  unfold blindingOps traceOf
  rw [List.foldl_append, List.foldl_append, List.foldl_cons, List.foldl_cons, List.foldl_nil]
  rfl

theorem block_entropy (st : Bytes) (hst : st.length = 200) (tl : List Cell) (p : Nat) (e e' : Bytes) (he : e.length = 32)
    (he' : e'.length = 32)
    (h : spongeBlock keccakf st (e.map .over ++ tl, p) = spongeBlock keccakf st (e'.map .over ++ tl, p)) : e = e' := by
  have hin : ∀ (c : List Cell) (i j : Nat) (x y z : UInt8), (xorAt (xorAt (xorAt (applyCells c st) i x) j y) 167 z).length = 200 := by
    intro c i j x y z
    unfold xorAt
    rw [List.length_set, List.length_set, List.length_set, applyCells_length, hst]
  have h1 := keccakf_inj _ _ (hin _ _ _ _ _ _) (hin _ _ _ _ _ _) h
  have htake : ∀ (e : Bytes) (i j : Nat) (x y z : UInt8), e.length = 32 → 32 ≤ i → 32 ≤ j →
      (xorAt (xorAt (xorAt (applyCells (e.map .over ++ tl) st) i x) j y) 167 z).take 32 = e := by
    intro e i j x y z he hi hj
    rw [xorAt_take _ _ _ _ (by omega), xorAt_take _ _ _ _ hj, xorAt_take _ _ _ _ hi,
      applyCells_over _ _ _ (by omega), List.take_append_of_le_length he.ge, List.take_of_length_le he.le]
  have hl : ∀ e : Bytes, e.length = 32 → 32 ≤ (e.map Cell.over ++ tl).length := by
    intro e he
    rw [List.length_append, List.length_map, he]
    omega
  have h2 := htake e _ _ (UInt8.ofNat p) 0x04 0x80 he (hl e he) ((hl e he).trans (Nat.le_succ _))
  have h3 := htake e' _ _ (UInt8.ofNat p) 0x04 0x80 he' (hl e' he') ((hl e' he').trans (Nat.le_succ _))
  exact h2.symm.trans ((congrArg (List.take 32) h1).trans h3)

theorem sponge_entropy (s0 : Bytes) (hs0 : s0.length = 200) (t : Trace) (e e' : Bytes) (he : e.length = 32)
    (he' : e'.length = 32)
    (h : sponge keccakf s0 ((t.op ⟨6, e.map .over ++ (le4 128).map .xor⟩).begin 7) =
      sponge keccakf s0 ((t.op ⟨6, e'.map .over ++ (le4 128).map .xor⟩).begin 7)) : e = e' := by
  obtain ⟨bs, p, tl, htl, hk⟩ := last_block t
  rw [hk e he, hk e' he'] at h
  have hs : ∀ b : Block, sponge keccakf s0 ⟨bs ++ [b], [], 0⟩ = spongeBlock keccakf (bs.foldl (spongeBlock keccakf) s0) b := by
    intro b
    unfold sponge
    rw [applyCells_nil, List.foldl_append, List.foldl_cons, List.foldl_nil]
  rw [hs, hs] at h
  exact block_entropy _ (blocks_length keccakf_length s0 hs0 bs) tl p e e' he he' h

/-- **C93, entropy.** With the same transcript and the same secrets, different entropy gives
different 200-byte states from which the factors are read. -/
theorem C93_entropy (tag : Bytes) (ops : List TOp) (ws : List (Bytes × Bytes)) (e e' : Bytes) (he : e.length = 32)
    (he' : e'.length = 32)
    (h : sponge keccakf (st0 keccakf) ((traceOf (blindingOps tag ops ws e)).begin 7) =
      sponge keccakf (st0 keccakf) ((traceOf (blindingOps tag ops ws e')).begin 7)) : e = e' := by
  have hl := st0_length keccakf_length
  generalize st0 keccakf = s0 at h hl
  rw [blinding_trace, blinding_trace] at h
  exact sponge_entropy s0 hl _ e e' he he' h

/-! ### Wiping -/

/-- **C93, wiping.** A wiped generator has the same memory whatever the transcript, the secrets and
the entropy were; and every further call on it fails its assertion. -/
theorem C93_wiped (s s' : Strobe) (ws ws' : List (Bytes × Bytes)) (e e' : Bytes) (n n' : Nat) (o o' : Bytes) (r r' : Rng)
    (h : rngRun s ws e n = .ok (o, r)) (h' : rngRun s' ws' e' n' = .ok (o', r')) :
    rngWipe r = rngWipe r' ∧ (∀ l w, rngCommit keccakf (rngWipe r) l w = .throw) ∧
      (∀ x, rngFinalize keccakf (rngWipe r) x = .throw) ∧ ∀ m, rngRandom keccakf (rngWipe r) m = .throw := by
  have fin : ∀ (s : Strobe) (ws : List (Bytes × Bytes)) (e : Bytes) (n : Nat) (o : Bytes) (r : Rng),
      rngRun s ws e n = .ok (o, r) → r.finalized = true := by
    intro s ws e n o r h
    unfold rngRun at h
    obtain ⟨r1, -, h⟩ := Res.bind_eq_ok.1 h
    obtain ⟨r2, -, h⟩ := Res.bind_eq_ok.1 h
    unfold rngRandom at h
    split at h
    · rename_i hf
      obtain ⟨s3, -, h⟩ := Res.bind_eq_ok.1 h
      obtain ⟨q, -, h⟩ := Res.bind_eq_ok.1 h
      have := congrArg Prod.snd (Res.ok.inj h)
      simp only at this
      rw [← this]
      exact hf
    · cases h
  have hf := fin _ _ _ _ _ _ h
  have hf' := fin _ _ _ _ _ _ h'
  refine ⟨by unfold rngWipe; rw [hf, hf'], fun l w => ?_, fun x => ?_, fun m => ?_⟩
  · unfold rngCommit; rw [if_pos (by exact hf)]
  · unfold rngFinalize; rw [if_pos (by exact hf)]
  · unfold rngRandom
    rw [if_pos (by exact hf)]
    rfl

/-- The hypotheses are met after a commitment and a challenge, with two secrets in each array; the
same call with another second secret feeds other blocks to the sponge. -/
example : ∃ s outs a b, (do let s ← transcriptInit keccakf [1, 2]; runOps keccakf s [.commit [3] [4, 5], .challenge [6] 300]) = .ok (outs, s) ∧
    newBlindingFactors keccakf s [7] 2 [[1], [2]] (some [[3], [4]]) (List.replicate 32 9) = .ok (a, b, s) ∧
    traceOf (blindingOps [1, 2] [.commit [3] [4, 5], .challenge [6] 300] (secrets [7] 2 [[1], [2]] (some [[3], [4]]))
        (List.replicate 32 9)) ≠
      traceOf (blindingOps [1, 2] [.commit [3] [4, 5], .challenge [6] 300] (secrets [7] 2 [[1], [5]] (some [[3], [4]]))
        (List.replicate 32 9)) := by
  obtain ⟨outs, s, h, -⟩ := C50_transcript [1, 2] [.commit [3] [4, 5], .challenge [6] 300]
  obtain ⟨a, b, h1, -⟩ := C93_bytes [1, 2] _ s outs h [7] 2 [[1], [2]] (some [[3], [4]]) (List.replicate 32 9)
    (by simp) (by simp) (by simp)
  refine ⟨s, outs, a, b, h, h1, fun he => ?_⟩
  have := ((C93_calls _ _ _ _ _ _ _ _ _ _ _ _ _ _).1 he).2.2.2.1
  simp at this

/-- Two finished runs of the generator, with different secrets and entropy. -/
example : ∃ s o r o' r', rngRun s [([1], [2])] (List.replicate 32 9) 128 = .ok (o, r) ∧
    rngRun s [([1], [3]), ([4], [5])] (List.replicate 32 8) 64 = .ok (o', r') := by
  obtain ⟨outs, s, h, -⟩ := C50_transcript [1, 2] [.commit [3] [4, 5]]
  obtain ⟨o, r, h1, -⟩ := C50_rng _ _ s outs h [([1], [2])] (List.replicate 32 9) (by simp) 128
  obtain ⟨o', r', h1', -⟩ := C50_rng _ _ s outs h [([1], [3]), ([4], [5])] (List.replicate 32 8) (by simp) 64
  exact ⟨s, o, r, o', r', h1, h1'⟩

end Verif.Props
