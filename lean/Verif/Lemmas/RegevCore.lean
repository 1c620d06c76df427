import Verif.Lemmas.RegevHonest

namespace Verif
open Spec Regev
open scoped BigOperators

section
variable {q : ℕ} [Fact q.Prime] {G : Type} [AddCommGroup G] [Module (ZMod q) G]

/-- Position `j` is written. -/
def Covers {F : Type} (W : List (ℕ × List F)) (j : ℕ) : Prop := ∃ p ∈ W, p.1 ≤ j ∧ j < p.1 + p.2.length

theorem covers_append {F : Type} (W W' : List (ℕ × List F)) (j : ℕ) :
    Covers (W ++ W') j ↔ Covers W j ∨ Covers W' j := by
  unfold Covers
  simp only [List.mem_append]
  constructor
  · rintro ⟨p, hp | hp, h⟩
    · exact Or.inl ⟨p, hp, h⟩
    · exact Or.inr ⟨p, hp, h⟩
  · rintro (⟨p, hp, h⟩ | ⟨p, hp, h⟩)
    · exact ⟨p, Or.inl hp, h⟩
    · exact ⟨p, Or.inr hp, h⟩

theorem covers_cons {F : Type} (p : ℕ × List F) (W : List (ℕ × List F)) (j : ℕ) :
    Covers (p :: W) j ↔ (p.1 ≤ j ∧ j < p.1 + p.2.length) ∨ Covers W j := by
  unfold Covers
  simp only [List.mem_cons, exists_eq_or_imp]

theorem covers_nil {F : Type} (j : ℕ) : ¬ Covers ([] : List (ℕ × List F)) j := by
  rintro ⟨p, hp, _⟩; cases hp

theorem covers_pairs {P : Params q} {tests : ℕ → Tests} {L : List (ℕ × Padded q)}
    (hL : ∀ p ∈ L, PadOk P tests p) (j : ℕ) : Covers (pairWrites L) j ↔ j / 260 ∈ L.map Prod.fst := by
  induction L with
  | nil => simp [pairWrites, covers_nil]
  | cons p L ih =>
    have h := hL p List.mem_cons_self
    have e : pairWrites (p :: L) =
        (260 * p.1, coeffs p.2.comp) :: (260 * p.1 + 256, coeffs p.2.pad) :: pairWrites L := rfl
    rw [e, covers_cons, covers_cons, ih fun p hp => hL p (List.mem_cons_of_mem _ hp)]
    simp only [coeffs_length, h.2.1, h.2.2.1, List.map_cons, List.mem_cons]
    rw [← or_assoc]
    refine or_congr_left ?_
    omega

theorem pairWrites_append (L L' : List (ℕ × Padded q)) :
    pairWrites (L ++ L') = pairWrites L ++ pairWrites L' := by
  unfold pairWrites; rw [List.flatMap_append]

theorem normAll_append (P : Params q) (norm : List (QuadConstraint (ZMod q))) (L L' : List ℕ) :
    normAll P norm (L ++ L') = normAll P (normAll P norm L) L' := List.foldl_append

theorem copiedAll_append : ∀ (L L' : List (ℕ × Padded q)) {a b c : EVec q 2},
    CopiedAll a L b → CopiedAll b L' c → CopiedAll a (L ++ L') c := by
  intro L
  induction L with
  | nil => intro L' a b c h h'; rw [show a = b from h]; exact h'
  | cons p L ih =>
    rintro L' a b c ⟨mid, h1, h2⟩ h'
    exact ⟨mid, h1, ih L' h2 h'⟩

/-- Two steps make one. -/
theorem Step.trans {St : Type} {P : Params q} {tests : ℕ → Tests} {vd vd1 vd2 : VerifierData (ZMod q) G St}
    {pd pd1 pd2 : ProverData (ZMod q)} {s1 s2 : List ℕ} {L1 L2 : List (ℕ × Padded q)}
    {W1 W2 : List (ℕ × List (ZMod q))} (h1 : Step P tests vd pd vd1 pd1 s1 L1 W1)
    (h2 : Step P tests vd1 pd1 vd2 pd2 s2 L2 W2) (hn : (L1.map Prod.fst ++ L2.map Prod.fst).Nodup) :
    Step P tests vd pd vd2 pd2 (s1 ++ s2) (L1 ++ L2) (W1 ++ W2) where
  ix := h2.ix.trans h1.ix
  Gs := h2.Gs.trans h1.Gs
  Hs := h2.Hs.trans h1.Hs
  linLength := h2.linLength.trans h1.linLength
  linRest i hi := (h2.linRest i fun s hs => hi s (List.mem_append_right _ hs)).trans
    (h1.linRest i fun s hs => hi s (List.mem_append_left _ hs))
  norm := by rw [h2.norm, h1.norm, List.map_append, normAll_append]
  compLength := h2.compLength
  comp := copiedAll_append _ _ h1.comp h2.comp
  pads p hp := by
    rcases List.mem_append.1 hp with hp | hp
    · exact h1.pads p hp
    · exact h2.pads p hp
  nodup := by rw [List.map_append]; exact hn
  linWitness := by rw [h2.linWitness, h1.linWitness, putAll_append]
  quadWitness := by rw [h2.quadWitness, h1.quadWitness, pairWrites_append, putAll_append]
  writes p hp := by
    rw [pairWrites_append] at hp
    rcases List.mem_append.1 hp with hp | hp
    · exact List.mem_append_left _ (h1.writes p hp)
    · exact List.mem_append_right _ (h2.writes p hp)

theorem Says.slotOk {cs : List (LinConstraint (ZMod q))} {s w d} (h : Says cs s (fun k => k < w) d) :
    SlotOk cs s w := by
  obtain ⟨e, f, hp, -⟩ := h
  intro i
  obtain ⟨c, h1, h2, h3, -⟩ := hp i
  rw [List.getElem?_drop] at h1
  rw [List.getD_eq_getElem?_getD, h1]
  exact ⟨h2, h3⟩

theorem slotSat_congr {cs cs' : List (LinConstraint (ZMod q))} {s : ℕ} {x : ℕ → ZMod q}
    (h0 : cs'[s]? = cs[s]?) (h1 : cs'[s + 1]? = cs[s + 1]?) (h : SlotSat cs s x) : SlotSat cs' s x := by
  unfold SlotSat at *
  rw [h0, h1]; exact h

theorem slotOk_congr {cs cs' : List (LinConstraint (ZMod q))} {s w : ℕ}
    (h0 : cs'[s]? = cs[s]?) (h1 : cs'[s + 1]? = cs[s + 1]?) (h : SlotOk cs s w) : SlotOk cs' s w := by
  intro i
  have e : cs'.getD (s + i.val) ⟨[], 0⟩ = cs.getD (s + i.val) ⟨[], 0⟩ := by
    rw [List.getD_eq_getElem?_getD, List.getD_eq_getElem?_getD]
    have : i.val = 0 ∨ i.val = 1 := by omega
    rcases this with e | e <;> rw [e]
    · rw [Nat.add_zero, h0]
    · rw [h1]
  rw [e]
  exact h i

/-! ### What the three functions leave behind, for any values that are read off as they were written -/

theorem dec_core {E : Env (ZMod q) G} (hE : LengthOk E) {P : Params q} (hP : ParamsOk P)
    {tests : ℕ → Tests} (hT : ∀ k, NoFalsePrimes (tests k).probPrime) {fresh : Blocks (ZMod q)}
    {vd vd' : VerifierData (ZMod q) G E.St} {pd pd' : ProverData (ZMod q)} (S : Setup P vd pd)
    {ctMat : EMat q 2} {ctVec : EVec q 2} {ptxt : List (ZMod q)} {skey noise : EVec q 2}
    (hM : HasShape ctMat P.gk.kay P.gk.tee) (hV : ctVec.length = P.gk.tee)
    (hpt : ptxt.length = P.gk.tee) (hsk : skey.length = P.gk.kay) (hno : noise.length = P.gk.tee)
    (hD : Decrypts P.delta P.gk.kay P.gk.tee ctMat ctVec ptxt skey noise)
    (h : proveDecryption E P fresh tests vd pd ctMat ctVec ptxt skey noise = .ok (vd', pd')) :
    ∃ (L : List (ℕ × Padded q)) (W : List (ℕ × List (ZMod q))),
      Step P tests vd pd vd' pd' [0] L W ∧ L.map Prod.fst = [0, 1] ∧
      W.Pairwise Apart ∧ (∀ j, Covers W j ↔ j / 260 ∈ [0, 1] ∨
        (vd.ix.sk1 ≤ j ∧ j < vd.ix.sk1 + P.gk.kay * 2) ∨ (vd.ix.pt1 ≤ j ∧ j < vd.ix.pt1 + P.gk.tee)) ∧
      SlotOk vd'.linConstr 0 vd.ix.w ∧
      (∀ x, (∀ p ∈ W, Reads x p.1 p.2) →
        SlotSat vd'.linConstr 0 x ∧ Reads x vd.ix.sk1 (coeffs skey) ∧ Reads x vd.ix.pt1 ptxt ∧
        vd'.com.dCompHi = comGH E.base vd.Gs vd.Hs x x vd.ix.dCompHi 256 pd'.rnd.dCompHi ∧
        vd'.com.dPadHi = comGH E.base vd.Gs vd.Hs x x vd.ix.dPadHi 4 pd'.rnd.dPadHi ∧
        vd'.com.dCompLo = comGH E.base vd.Gs vd.Hs x x vd.ix.dCompLo 256 pd'.rnd.dCompLo ∧
        vd'.com.dPadLo = comGH E.base vd.Gs vd.Hs x x vd.ix.dPadLo 4 pd'.rnd.dPadLo ∧
        vd'.com.pt1 = comG E.base vd.Gs x vd.ix.pt1 P.gk.tee pd'.rnd.pt1) ∧
      vd'.com = { vd.com with pt1 := vd'.com.pt1, dCompHi := vd'.com.dCompHi, dPadHi := vd'.com.dPadHi,
                              dCompLo := vd'.com.dCompLo, dPadLo := vd'.com.dPadLo } ∧
      pd'.rnd = { pd.rnd with pt1 := pd'.rnd.pt1, dCompHi := pd'.rnd.dCompHi, dPadHi := pd'.rnd.dPadHi,
                              dCompLo := pd'.rnd.dCompLo, dPadLo := pd'.rnd.dPadLo } := by
  obtain ⟨hi, lo, h1, h2, h3, h4, h5, h6, h7, h8⟩ := dec_run hE hP hT S hM hV hpt hno h
  have hL := lay_of S.layout
  have hW : (pairWrites [(0, hi), (1, lo)] ++ [(vd.ix.sk1, coeffs skey), (vd.ix.pt1, ptxt)]).Pairwise Apart := by
    rw [List.pairwise_append]
    refine ⟨pairWrites_apart h1.pads h1.nodup, ?_, ?_⟩
    · simp only [List.pairwise_cons, List.mem_singleton, forall_eq, List.not_mem_nil, false_imp_iff,
        implies_true, List.Pairwise.nil, and_true]
      left
      simp only [coeffs_length, hsk, hL.pt1]
      rcases hL.sk with h | h <;> omega
    · intro a ha b hb
      have := pairWrites_below h1.pads a ha
      left
      simp only [List.mem_cons, List.not_mem_nil, or_false] at hb
      rcases hb with rfl | rfl
      · rcases hL.sk with h | h <;> simp only [h.1, h.2] <;> omega
      · simp only [hL.pt1]; omega
  refine ⟨_, _, h1, rfl, hW, ?_, h3.slotOk, fun x hr => ?_, h5, by rw [h6]⟩
  · intro j
    rw [covers_append, covers_pairs h1.pads, covers_cons, covers_cons]
    simp only [covers_nil, or_false, coeffs_length, hsk, hpt]
    rfl
  have r1 := hr (vd.ix.sk1, coeffs skey) (by simp)
  have r2 := hr (vd.ix.pt1, ptxt) (by simp)
  have b0 := h1.pads (0, hi) (by simp)
  have b1 := h1.pads (1, lo) (by simp)
  refine ⟨(h3.slotSat x).2 (batch_zero fun j hj => ?_), r1, r2, h4 x hr⟩
  rw [hL.dCompLo, hL.dCompHi,
    digits_reads (hr (260 * 1, coeffs lo.comp) (by simp [pairWrites]))
      (hr (260 * 0, coeffs hi.comp) (by simp [pairWrites])) (by rw [b1.2.1]; exact hj)
      (by rw [b0.2.1]; exact hj), h2 j hj, sub_eq_zero]
  exact sum_range_congr fun i hi => by rw [decNoise_eq hD hsk hpt r1 r2 hi]

theorem enc_core {E : Env (ZMod q) G} (hE : LengthOk E) {P : Params q} (hP : ParamsOk P)
    {tests : ℕ → Tests} (hT : ∀ k, NoFalsePrimes (tests k).probPrime) {fresh : Blocks (ZMod q)}
    {vd vd' : VerifierData (ZMod q) G E.St} {pd pd' : ProverData (ZMod q)} (S : Setup P vd pd)
    (h6 : SlotOk vd.linConstr 6 vd.ix.w) (h6' : ∀ x, slotLhs vd.linConstr 6 x = 0)
    {ct1 ct2 : EVec q 2} {ptxt : List (ZMod q)} {rnd noise1 noise2 : EVec q 2}
    (hc1 : ct1.length = P.gk.kay) (hc2 : ct2.length = P.gk.enn)
    (hpt : ptxt.length = P.gk.enn) (hr : rnd.length = P.gk.kay)
    (hn1 : noise1.length = P.gk.kay) (hn2 : noise2.length = P.gk.enn)
    (hD1 : Encrypts1 P.gk.kay P.gk.A ct1 rnd noise1)
    (hD2 : Encrypts2 P.delta P.gk.kay P.gk.enn P.gk.B ct2 ptxt rnd noise2)
    (h : proveEncryption E P fresh tests vd pd ct1 ct2 ptxt rnd noise1 noise2 = .ok (vd', pd')) :
    ∃ (L : List (ℕ × Padded q)) (W : List (ℕ × List (ZMod q))),
      Step P tests vd pd vd' pd' [2, 4, 6] L W ∧ L.map Prod.fst = [2, 3, 4, 5, 6] ∧
      W.Pairwise Apart ∧ (∀ j, Covers W j ↔ j / 260 ∈ [2, 3, 4, 5, 6] ∨
        (vd.ix.r ≤ j ∧ j < vd.ix.r + P.gk.kay * 2) ∨ (vd.ix.pt2 ≤ j ∧ j < vd.ix.pt2 + P.gk.enn)) ∧
      SlotOk vd'.linConstr 2 vd.ix.w ∧ SlotOk vd'.linConstr 4 vd.ix.w ∧ SlotOk vd'.linConstr 6 vd.ix.w ∧
      (∀ x, (∀ p ∈ W, Reads x p.1 p.2) →
        (SlotSat vd'.linConstr 2 x ∧ SlotSat vd'.linConstr 4 x ∧ SlotSat vd'.linConstr 6 x) ∧
        Reads x vd.ix.r (coeffs rnd) ∧ Reads x vd.ix.pt2 ptxt ∧
        vd'.com.rComp = comGH E.base vd.Gs vd.Hs x x vd.ix.rComp 256 pd'.rnd.rComp ∧
        vd'.com.rPad = comGH E.base vd.Gs vd.Hs x x vd.ix.rPad 4 pd'.rnd.rPad ∧
        vd'.com.eComp1Hi = comGH E.base vd.Gs vd.Hs x x vd.ix.eComp1Hi 256 pd'.rnd.eComp1Hi ∧
        vd'.com.ePad1Hi = comGH E.base vd.Gs vd.Hs x x vd.ix.ePad1Hi 4 pd'.rnd.ePad1Hi ∧
        vd'.com.eComp1Lo = comGH E.base vd.Gs vd.Hs x x vd.ix.eComp1Lo 256 pd'.rnd.eComp1Lo ∧
        vd'.com.ePad1Lo = comGH E.base vd.Gs vd.Hs x x vd.ix.ePad1Lo 4 pd'.rnd.ePad1Lo ∧
        vd'.com.eComp2Hi = comGH E.base vd.Gs vd.Hs x x vd.ix.eComp2Hi 256 pd'.rnd.eComp2Hi ∧
        vd'.com.ePad2Hi = comGH E.base vd.Gs vd.Hs x x vd.ix.ePad2Hi 4 pd'.rnd.ePad2Hi ∧
        vd'.com.eComp2Lo = comGH E.base vd.Gs vd.Hs x x vd.ix.eComp2Lo 256 pd'.rnd.eComp2Lo ∧
        vd'.com.ePad2Lo = comGH E.base vd.Gs vd.Hs x x vd.ix.ePad2Lo 4 pd'.rnd.ePad2Lo ∧
        vd'.com.r = comG E.base vd.Gs x vd.ix.r (P.gk.kay * 2) pd'.rnd.r ∧
        vd'.com.pt2 = comG E.base vd.Gs x vd.ix.pt2 P.gk.enn pd'.rnd.pt2) ∧
      vd'.com = { vd.com with pt2 := vd'.com.pt2, r := vd'.com.r, rComp := vd'.com.rComp,
                              rPad := vd'.com.rPad, eComp1Hi := vd'.com.eComp1Hi,
                              ePad1Hi := vd'.com.ePad1Hi, eComp1Lo := vd'.com.eComp1Lo,
                              ePad1Lo := vd'.com.ePad1Lo, eComp2Hi := vd'.com.eComp2Hi,
                              ePad2Hi := vd'.com.ePad2Hi, eComp2Lo := vd'.com.eComp2Lo,
                              ePad2Lo := vd'.com.ePad2Lo } ∧
      pd'.rnd = { pd.rnd with pt2 := pd'.rnd.pt2, r := pd'.rnd.r, rComp := pd'.rnd.rComp,
                              rPad := pd'.rnd.rPad, eComp1Hi := pd'.rnd.eComp1Hi,
                              ePad1Hi := pd'.rnd.ePad1Hi, eComp1Lo := pd'.rnd.eComp1Lo,
                              ePad1Lo := pd'.rnd.ePad1Lo, eComp2Hi := pd'.rnd.eComp2Hi,
                              ePad2Hi := pd'.rnd.ePad2Hi, eComp2Lo := pd'.rnd.eComp2Lo,
                              ePad2Lo := pd'.rnd.ePad2Lo } := by
  obtain ⟨r, hi1, lo1, hi2, lo2, C, hC, h1, g1, g2, g3, k1, k2, k3, o, c1, c2, m, z⟩ :=
    enc_run hE hP hT S h6 hc1 hc2 hpt hr hn1 hn2 h
  have hL := lay_of S.layout
  have hW : (pairWrites [(2, r), (3, hi1), (4, lo1), (5, hi2), (6, lo2)] ++
      [(vd.ix.r, coeffs rnd), (vd.ix.pt2, ptxt)]).Pairwise Apart := by
    rw [List.pairwise_append]
    refine ⟨pairWrites_apart h1.pads h1.nodup, ?_, ?_⟩
    · simp only [List.pairwise_cons, List.mem_singleton, forall_eq, List.not_mem_nil, false_imp_iff,
        implies_true, List.Pairwise.nil, and_true]
      left
      simp only [coeffs_length, hr, hL.pt2, hL.r]
      omega
    · intro a ha b hb
      have := pairWrites_below h1.pads a ha
      left
      simp only [List.mem_cons, List.not_mem_nil, or_false] at hb
      rcases hb with rfl | rfl
      · simp only [hL.r]; omega
      · simp only [hL.pt2]; omega
  refine ⟨_, _, h1, rfl, hW, ?_, k1.slotOk, k2.slotOk, k3.slotOk, fun x hrd => ?_, c1, by rw [c2]⟩
  · intro j
    rw [covers_append, covers_pairs h1.pads, covers_cons, covers_cons]
    simp only [covers_nil, or_false, coeffs_length, hr, hpt]
    rfl
  have r1 := hrd (vd.ix.r, coeffs rnd) (by simp)
  have r2 := hrd (vd.ix.pt2, ptxt) (by simp)
  have b2 := (h1.pads (2, r) (by simp)).2.1
  have b3 := (h1.pads (3, hi1) (by simp)).2.1
  have b4 := (h1.pads (4, lo1) (by simp)).2.1
  have b5 := (h1.pads (5, hi2) (by simp)).2.1
  have b6 := (h1.pads (6, lo2) (by simp)).2.1
  refine ⟨⟨(k1.slotSat x).2 (batch_zero fun j hj => ?_), (k2.slotSat x).2 (batch_zero fun j hj => ?_),
    (k3.slotSat x).2 ?_⟩, r1, r2, o x hrd⟩
  · rw [hL.eComp1Lo, hL.eComp1Hi,
      digits_reads (hrd (260 * 4, coeffs lo1.comp) (by simp [pairWrites]))
        (hrd (260 * 3, coeffs hi1.comp) (by simp [pairWrites])) (by rw [b4]; exact hj)
        (by rw [b3]; exact hj), g1 j hj, sub_eq_zero]
    exact sum_range_congr fun i hi => by rw [encNoise1_eq hD1 hr r1 hi]
  · rw [hL.eComp2Lo, hL.eComp2Hi,
      digits_reads (hrd (260 * 6, coeffs lo2.comp) (by simp [pairWrites]))
        (hrd (260 * 5, coeffs hi2.comp) (by simp [pairWrites])) (by rw [b6]; exact hj)
        (by rw [b5]; exact hj), g2 j hj, sub_eq_zero]
    exact sum_range_congr fun i hi => by rw [encNoise2_eq hD2 hr hpt r1 r2 hi]
  · rw [h6', zero_add]
    refine batch_zero fun j hj => ?_
    have e : eltAt x (260 * 2) j = r.comp.getD j 0 :=
      Reads.elt (hrd (260 * 2, coeffs r.comp) (by simp [pairWrites])) j (by rw [b2]; exact hj)
    rw [hL.rComp, e, g3 j hj, sub_eq_zero]
    exact sum_range_congr fun i hi => by rw [r1.elt i (by omega)]

theorem key_core {E : Env (ZMod q) G} (hE : LengthOk E) {P : Params q} (hP : ParamsOk P)
    {tests : ℕ → Tests} (hT : ∀ k, NoFalsePrimes (tests k).probPrime) {fresh : Blocks (ZMod q)}
    {vd vd' : VerifierData (ZMod q) G E.St} {pd pd' : ProverData (ZMod q)} (S : Setup P vd pd)
    {pkNum : ℕ} {skey noise : EVec q 2} (hs : skey.length = P.gk.kay) (hno : noise.length = P.gk.kay)
    (hD : KeyFor P.gk.kay P.gk.A (P.gk.B.getD pkNum []) skey noise)
    (h : proveKeyGen E P fresh tests vd pd pkNum skey noise = .ok (vd', pd')) :
    ∃ (L : List (ℕ × Padded q)) (W : List (ℕ × List (ZMod q))),
      Step P tests vd pd vd' pd' [8, 10] L W ∧ L.map Prod.fst = [7, 8, 9] ∧
      W.Pairwise Apart ∧ (∀ j, Covers W j ↔ j / 260 ∈ [7, 8, 9] ∨
        (vd.ix.sk2 ≤ j ∧ j < vd.ix.sk2 + P.gk.kay * 2)) ∧
      SlotOk vd'.linConstr 8 vd.ix.w ∧ SlotOk vd'.linConstr 10 vd.ix.w ∧
      (∀ x, (∀ p ∈ W, Reads x p.1 p.2) →
        (SlotSat vd'.linConstr 8 x ∧ SlotSat vd'.linConstr 10 x) ∧ Reads x vd.ix.sk2 (coeffs skey) ∧
        vd'.com.sk2Comp = comGH E.base vd.Gs vd.Hs x x vd.ix.sk2Comp 256 pd'.rnd.sk2Comp ∧
        vd'.com.sk2Pad = comGH E.base vd.Gs vd.Hs x x vd.ix.sk2Pad 4 pd'.rnd.sk2Pad ∧
        vd'.com.kCompHi = comGH E.base vd.Gs vd.Hs x x vd.ix.kCompHi 256 pd'.rnd.kCompHi ∧
        vd'.com.kPadHi = comGH E.base vd.Gs vd.Hs x x vd.ix.kPadHi 4 pd'.rnd.kPadHi ∧
        vd'.com.kCompLo = comGH E.base vd.Gs vd.Hs x x vd.ix.kCompLo 256 pd'.rnd.kCompLo ∧
        vd'.com.kPadLo = comGH E.base vd.Gs vd.Hs x x vd.ix.kPadLo 4 pd'.rnd.kPadLo ∧
        vd'.com.sk2 = comG E.base vd.Gs x vd.ix.sk2 (P.gk.kay * 2) pd'.rnd.sk2) ∧
      vd'.com = { vd.com with sk2 := vd'.com.sk2, sk2Comp := vd'.com.sk2Comp, sk2Pad := vd'.com.sk2Pad,
                              kCompHi := vd'.com.kCompHi, kPadHi := vd'.com.kPadHi,
                              kCompLo := vd'.com.kCompLo, kPadLo := vd'.com.kPadLo } ∧
      pd'.rnd = { pd.rnd with sk2 := pd'.rnd.sk2, sk2Comp := pd'.rnd.sk2Comp, sk2Pad := pd'.rnd.sk2Pad,
                              kCompHi := pd'.rnd.kCompHi, kPadHi := pd'.rnd.kPadHi,
                              kCompLo := pd'.rnd.kCompLo, kPadLo := pd'.rnd.kPadLo } := by
  obtain ⟨sk, hi, lo, C, hC, h1, g1, g2, hpk, k1, k2, o, c1, c2, m, z⟩ := key_run hE hP hT S hs hno h
  have hL := lay_of S.layout
  have hW : ((vd.ix.sk2, coeffs skey) :: pairWrites [(7, sk), (8, hi), (9, lo)]).Pairwise Apart := by
    rw [List.pairwise_cons]
    refine ⟨?_, pairWrites_apart h1.pads h1.nodup⟩
    intro a ha
    have := pairWrites_below h1.pads a ha
    right
    rcases hL.sk with h | h <;> simp only [h.1, h.2] <;> omega
  refine ⟨_, _, h1, rfl, hW, ?_, k1.slotOk, k2.slotOk, fun x hrd => ?_, c1, by rw [c2]⟩
  · intro j
    rw [covers_cons, covers_pairs h1.pads]
    simp only [coeffs_length, hs]
    exact or_comm
  have r1 := hrd (vd.ix.sk2, coeffs skey) (by simp)
  have b7 := (h1.pads (7, sk) (by simp)).2.1
  have b8 := (h1.pads (8, hi) (by simp)).2.1
  have b9 := (h1.pads (9, lo) (by simp)).2.1
  refine ⟨⟨(k1.slotSat x).2 (batch_zero fun j hj => ?_), (k2.slotSat x).2 (batch_zero fun j hj => ?_)⟩,
    r1, o x hrd⟩
  · rw [hL.kCompLo, hL.kCompHi,
      digits_reads (hrd (260 * 9, coeffs lo.comp) (by simp [pairWrites]))
        (hrd (260 * 8, coeffs hi.comp) (by simp [pairWrites])) (by rw [b9]; exact hj)
        (by rw [b8]; exact hj), g1 j hj, sub_eq_zero]
    exact sum_range_congr fun i hi => by rw [keyNoise_eq hD hs r1 hi]
  · have e : eltAt x (260 * 7) j = sk.comp.getD j 0 :=
      Reads.elt (hrd (260 * 7, coeffs sk.comp) (by simp [pairWrites])) j (by rw [b7]; exact hj)
    rw [hL.sk2Comp, e, g2 j hj, sub_eq_zero]
    exact sum_range_congr fun i hi => by rw [r1.elt i (by omega)]

end
end Verif
